import Verif.Model.Cost
import Verif.Proofs.Avl
import Verif.Proofs.Rb
import Verif.Proofs.Quantile
import Mathlib.Data.Nat.Log
import Mathlib.Data.Nat.Fib.Basic

/-! # Bounds on the numbers of steps -/

namespace Verif
open Timed

/-! ### AVL -/

namespace Avl.Node
variable {F : Type}

/-- Number of levels. -/
def levels : Node F → Nat
  | nil => 0
  | node l _ r _ _ => max (levels l) (levels r) + 1

theorem addT_cost [GoOrd F] (n : Node F) (x : F) : (n.addT x).cost ≤ n.levels + 1 := by
  induction n with
  | nil => simp [addT, levels]
  | node l v r h s ihl ihr =>
    rw [addT, tick_bind_cost, levels]
    split
    · have := bind_cost_le (f := fun l' => free (fixup l' v r)) ihl (y := 0) (fun _ _ => by simp)
      omega
    · have := bind_cost_le (f := fun r' => free (fixup l v r')) ihr (y := 0) (fun _ _ => by simp)
      omega

theorem minT_cost (n : Node F) : n.minT.cost ≤ n.levels + 1 := by
  induction n with
  | nil => simp [minT, levels]
  | node l v r h s ihl ihr =>
    cases l with
    | nil => simp [minT]
    | node => rw [minT, tick_bind_cost, levels]; omega

theorem removeMinT_cost (n : Node F) : n.removeMinT.cost ≤ n.levels + 1 := by
  induction n with
  | nil => simp [removeMinT, levels]
  | node l v r h s ihl ihr =>
    cases l with
    | nil => simp [removeMinT]
    | node ll lv lr lh ls =>
      rw [removeMinT, tick_bind_cost, levels]
      have := bind_cost_le (f := fun l' => free (fixup l' v r)) ihl (y := 0) (fun _ _ => by simp)
      omega

theorem removeT_cost [GoOrd F] (n : Node F) (x : F) : (n.removeT x).cost ≤ 2 * n.levels + 1 := by
  induction n with
  | nil => simp [removeT, levels]
  | node l v r h s ihl ihr =>
    rw [removeT.eq_def]
    simp only [tick_bind_cost, levels]
    split
    · have := bind_cost_le (f := fun l' => free (fixup l' v r)) ihl (y := 0) (fun _ _ => by simp)
      omega
    · split
      · have := bind_cost_le (f := fun r' => free (fixup l v r')) ihr (y := 0) (fun _ _ => by simp)
        omega
      · split
        · simp
        · simp
        · have h1 := minT_cost r
          have h2 := removeMinT_cost r
          have := bind_cost_le (f := fun m => do let r' ← removeMinT r; free (fixup l m r')) h1 (y := r.levels + 1)
            (fun m _ => by
              have := bind_cost_le (f := fun r' => free (fixup l m r')) h2 (y := 0) (fun _ _ => by simp)
              simpa using this)
          omega

theorem selectT_cost (n : Node F) (k : Int) : (n.selectT k).cost ≤ n.levels + 1 := by
  induction n generalizing k with
  | nil => simp [selectT, levels]
  | node l v r h s ihl ihr =>
    rw [selectT, tick_bind_cost, levels]
    split
    · have := ihl k; omega
    · split
      · have := ihr (k - l.size - 1); omega
      · simp

theorem levels_eq (n : Node F) : (n.levels : Int) = n.realHeight + 1 := by
  induction n with
  | nil => rfl
  | node l v r h s ihl ihr => rw [levels, realHeight]; push_cast; omega

/-- 2^k ≤ fib(2k+1). -/
theorem two_pow_le_fib (k : Nat) : 2 ^ k ≤ Nat.fib (2 * k + 1) ∧ 2 ^ k ≤ Nat.fib (2 * k + 2) := by
  induction k with
  | zero => decide
  | succ k ih =>
    have e1 : Nat.fib (2 * (k + 1) + 1) = Nat.fib (2 * k + 1) + Nat.fib (2 * k + 2) := Nat.fib_add_two
    have e2 : Nat.fib (2 * (k + 1) + 2) = Nat.fib (2 * k + 2) + Nat.fib (2 * k + 3) := Nat.fib_add_two
    have e3 : Nat.fib (2 * k + 3) = Nat.fib (2 * k + 1) + Nat.fib (2 * k + 2) := Nat.fib_add_two
    rw [pow_succ]
    omega

/-- An AVL tree with `n` values has at most `2 log₂ (n+1)` levels. -/
theorem WF.levels_le [LinearOrder F] {n : Node F} (h : WF n) : n.levels ≤ 2 * Nat.log 2 (n.toList.length + 1) := by
  have h1 := h.fib_le
  have h2 := levels_eq n
  have h3 : (n.height + 3).toNat = n.levels + 2 := by rw [h.height_eq]; omega
  rw [h3] at h1
  obtain ⟨k, hk | hk⟩ := Nat.even_or_odd' n.levels
  · have h4 : 2 ^ k ≤ n.toList.length + 1 := by
      refine (two_pow_le_fib k).2.trans ?_
      rw [hk] at h1; exact h1
    have := Nat.le_log_of_pow_le (by norm_num) h4
    omega
  · have h4 : 2 ^ (k + 1) ≤ n.toList.length + 1 := by
      refine (two_pow_le_fib (k + 1)).1.trans ?_
      rw [hk] at h1; exact h1
    have := Nat.le_log_of_pow_le (by norm_num) h4
    omega

end Avl.Node

/-! ### Red-black -/

namespace Rb.Node
variable {F : Type}

theorem addT_cost [GoOrd F] (n : Node F) (x : F) : (n.addT x).cost ≤ n.realHeight + 1 := by
  induction n with
  | nil => simp [addT, realHeight]
  | node l v r c s ihl ihr =>
    rw [addT, tick_bind_cost, realHeight]
    split
    · have := bind_cost_le (f := fun l' => free (addBalance (node l' v r c s))) ihl (y := 0) (fun _ _ => by simp)
      omega
    · have := bind_cost_le (f := fun r' => free (addBalance (node l v r' c s))) ihr (y := 0) (fun _ _ => by simp)
      omega

theorem selectT_cost (n : Node F) (k : Int) : (n.selectT k).cost ≤ n.realHeight + 1 := by
  induction n generalizing k with
  | nil => simp [selectT, realHeight]
  | node l v r h s ihl ihr =>
    rw [selectT, tick_bind_cost, realHeight]
    split
    · have := ihl k; omega
    · split
      · have := ihr (k - l.size - 1); omega
      · simp

/-- Number of nodes on the leftmost path. -/
def spine : Node F → Nat
  | nil => 0
  | node l _ _ _ _ => spine l + 1

/-- `x` is the value at the end of the leftmost path, and smaller than the others there. -/
def SpineTo [LinearOrder F] : Node F → F → Prop
  | nil, _ => False
  | node l v _ _ _, x => (l = nil ∧ v = x) ∨ (x < v ∧ SpineTo l x)

variable [LinearOrder F]

theorem contains_spine {n : Node F} {x : F} (h : SpineTo n x) : n.contains x = true ∧ (n.containsT x).cost = n.spine := by
  induction n with
  | nil => exact absurd h (by simp [SpineTo])
  | node l v r c s ihl ihr =>
    rcases h with ⟨rfl, rfl⟩ | ⟨h1, h2⟩
    · simp [contains, containsT, spine, tick_bind_cost]
    · obtain ⟨a, b⟩ := ihl h2
      simp [contains, containsT, spine, h1, h1.ne, a, b]; omega

theorem flip_shape {l r n' : Node F} {v : F} {c : Bool} {s : Int} (e : flipColors (node l v r c s) = .val n') {x : F}
    (h2 : SpineTo l x) : ∃ l' r' c', n' = node l' v r' c' s ∧ SpineTo l' x ∧ l.spine = l'.spine := by
  rcases l with _ | ⟨ll, lv, lr, lc, ls⟩ <;> rcases r with _ | ⟨rl, rv, rr, rc, rs⟩ <;> simp [flipColors] at e
  subst e
  exact ⟨_, _, _, rfl, by simpa [SpineTo] using h2, rfl⟩

theorem moveRedLeft_shape {l r n' : Node F} {v : F} {c : Bool} {s : Int} (e : moveRedLeft (node l v r c s) = .val n') {x : F} (h1 : x < v)
    (h2 : SpineTo l x) : ∃ l' v' r' c' s', n' = node l' v' r' c' s' ∧ SpineTo l' x ∧ l.spine ≤ l'.spine := by
  unfold moveRedLeft at e
  obtain ⟨n1, e1, e⟩ := Go.bind_eq_val.1 e
  obtain ⟨l1, r1, c1, rfl, h3, h4⟩ := flip_shape e1 h2
  simp only at e
  obtain ⟨rl, e2, e⟩ := Go.bind_eq_val.1 e
  split at e
  · obtain ⟨r2, e3, e⟩ := Go.bind_eq_val.1 e
    obtain ⟨n2, e4, e⟩ := Go.bind_eq_val.1 e
    rcases r2 with _ | ⟨a, b, cc, d, f⟩
    · simp [rotateLeft] at e4
    · simp only [rotateLeft, Go.val.injEq] at e4
      subst e4
      rcases cc with _ | ⟨g1, g2, g3, g4, g5⟩
      · simp [flipColors] at e
      · simp only [flipColors, Go.val.injEq] at e
        subst e
        refine ⟨_, _, _, _, _, rfl, .inr ⟨h1, h3⟩, ?_⟩
        simp [spine]; omega
  · simp only [Go.pure_eq, Go.val.injEq] at e
    subst e
    exact ⟨_, _, _, _, _, rfl, h3, by omega⟩

/-- Removing the smallest value searches the leftmost path again at each of its nodes. -/
theorem removeT_cost_ge {x : F} (fuel : Nat) : ∀ {n n' : Node F}, SpineTo n x → remove fuel n x = .val n' →
    n.spine * (n.spine + 3) ≤ 2 * (removeT fuel n x).cost := by
  induction fuel with
  | zero => intro n n' _ e; cases e
  | succ fuel ih =>
    intro n n' h e
    obtain ⟨hc, hcost⟩ := contains_spine h
    rcases n with _ | ⟨l, v, r, c, s⟩
    · exact absurd h (by simp [SpineTo])
    rw [removeT.eq_def]
    simp only [tick_bind_cost]
    rw [bind_cost, containsT_out, hcost, hc]
    rcases h with ⟨rfl, rfl⟩ | ⟨h1, h2⟩
    · simp only [spine]
      omega
    · rw [remove.eq_def] at e
      simp only [hc, Bool.not_true, Bool.false_eq_true, if_false, goLt_eq, h1, decide_true, if_true] at e ⊢
      obtain ⟨bb, e1, e⟩ := Go.bind_eq_val.1 e
      obtain ⟨n1, e2, e⟩ := Go.bind_eq_val.1 e
      rw [bind_cost, free_out, e1]
      simp only [free_cost]
      rw [bind_cost, free_out, e2]
      simp only [free_cost]
      have hs : ∃ l' v' r' c' s', n1 = node l' v' r' c' s' ∧ SpineTo l' x ∧ l.spine ≤ l'.spine := by
        cases bb
        · simp only [Bool.false_eq_true, if_false, Go.val.injEq] at e2
          exact ⟨_, _, _, _, _, e2.symm, h2, le_rfl⟩
        · exact moveRedLeft_shape e2 h1 h2
      obtain ⟨l', v', r', c', s', rfl, h3, h4⟩ := hs
      simp only at e ⊢
      obtain ⟨l'', e3, e⟩ := Go.bind_eq_val.1 e
      have := ih h3 e3
      rw [bind_cost]
      simp only [spine]
      nlinarith [this, h4]

/-- A sorted tree whose first value occurs once has it at the end of the leftmost path. -/
theorem spineTo_of_sorted {n : Node F} {x : F} {rest : List F} (e : n.toList = x :: rest) (h : ∀ y ∈ rest, x < y) : SpineTo n x := by
  induction n generalizing rest with
  | nil => simp [toList] at e
  | node l v r c s ihl ihr =>
    rw [toList] at e
    cases l with
    | nil => simp [toList] at e; exact .inl ⟨rfl, e.1⟩
    | node ll lv lr lc ls =>
      refine .inr ?_
      rcases hl : (node ll lv lr lc ls).toList with _ | ⟨y, ys⟩
      · simp [toList] at hl
      · rw [hl] at e
        simp only [List.cons_append, List.cons.injEq] at e
        obtain ⟨rfl, rfl⟩ := e
        exact ⟨h v (by simp), ihl hl (fun z hz => h z (by simp [hz]))⟩

omit [LinearOrder F] in
theorem Inv.spine_ge {n : Node F} {b : Nat} (h : Inv n b) : b ≤ n.spine := by
  induction n generalizing b with
  | nil => rw [inv_nil] at h; omega
  | node l v r c s ihl ihr =>
    cases c
    · obtain ⟨-, -, b', rfl, h3, -⟩ := inv_black.1 h
      have := ihl h3; rw [spine]; omega
    · obtain ⟨b', h1, h2, h3, h4, h5, h6⟩ := h.node_cases
      simp at h6
      subst h6
      have := ihl h4; rw [spine]; omega

omit [LinearOrder F] in
theorem length_lt_pow (n : Node F) : n.toList.length + 1 ≤ 2 ^ n.realHeight := by
  induction n with
  | nil => simp [toList, realHeight]
  | node l v r c s ihl ihr =>
    have h1 : 2 ^ l.realHeight ≤ 2 ^ max l.realHeight r.realHeight := Nat.pow_le_pow_right (by norm_num) (le_max_left _ _)
    have h2 : 2 ^ r.realHeight ≤ 2 ^ max l.realHeight r.realHeight := Nat.pow_le_pow_right (by norm_num) (le_max_right _ _)
    rw [realHeight, pow_succ]
    simp only [toList, List.length_append, List.length_cons]
    omega

omit [LinearOrder F] in
/-- The leftmost path is at least half as long as the logarithm of the number of values. -/
theorem RootInv.spine_ge {n : Node F} (h : RootInv n) : Nat.log 2 (n.toList.length + 1) ≤ 2 * n.spine + 1 := by
  have hl : Nat.log 2 (n.toList.length + 1) ≤ n.realHeight := by
    have := Nat.log_mono_right (b := 2) (length_lt_pow n)
    rwa [Nat.log_pow (by norm_num)] at this
  have key : ∀ {m : Node F} {b : Nat}, Inv m b → m.realHeight ≤ 2 * m.spine + 1 := by
    intro m b hm
    have h1 := hm.bounds.2
    have h2 := hm.spine_ge
    split_ifs at h1 <;> omega
  obtain ⟨b, h | h⟩ := h
  · have := key h; omega
  · have := key h
    have e : n.toggle.realHeight = n.realHeight ∧ n.toggle.spine = n.spine := by cases n <;> exact ⟨rfl, rfl⟩
    rw [e.1, e.2] at this
    omega

/-! Upper bounds: `mu b t` bounds the height of a tree of black height `b`. -/

/-- Twice the black height, plus one for a red root. -/
def mu (b : Nat) (t : Node F) : Nat := 2 * b + if t.color then 1 else 0

omit [LinearOrder F] in
theorem containsT_cost [GoOrd F] (n : Node F) (x : F) : (n.containsT x).cost ≤ n.realHeight + 1 := by
  induction n with
  | nil => simp [containsT, realHeight]
  | node l v r c s ihl ihr =>
    rw [containsT, tick_bind_cost, realHeight]
    split
    · simp
    · split <;> omega

omit [LinearOrder F] in
theorem minT_cost (n : Node F) : n.minT.cost ≤ n.realHeight + 1 := by
  induction n with
  | nil => simp [minT, realHeight]
  | node l v r h s ihl ihr =>
    cases l with
    | nil => simp [minT]
    | node => rw [minT, tick_bind_cost, realHeight]; omega

omit [LinearOrder F] in
/-- The child the code descends to has a smaller `mu`. -/
theorem mu_lt {l v r c s} {l1 : Node F} {c1 : Bool} {b b1 : Nat} (hb : b = b1 + (if c1 then 0 else 1))
    (hc : c1 = true → l1.color = false) (hcc : c = false → c1 = false) : mu b1 l1 < mu b (node l v r c s : Node F) := by
  unfold mu
  cases c1 <;> cases c <;> simp_all [color_node] <;> split <;> omega

omit [LinearOrder F] in
theorem removeMinT_cost_le (fuel : Nat) {t : Node F} {b : Nat} (h : Inv t b) (hr : Ready t) : (removeMinT fuel t).cost ≤ mu b t + 1 := by
  induction fuel generalizing t b with
  | zero => simp [removeMinT]
  | succ f ih =>
    rw [removeMinT.eq_def]
    simp only [tick_bind_cost]
    rcases t with _ | ⟨l, v, r, c, s⟩
    · simp
    · by_cases hl : l = nil
      · subst hl; simp
      · obtain ⟨bb, e1, l1, v1, r1, c1, s1, b1, e2, il, rl, ir, hc, hb, hcc, ht, tl, htl⟩ := prepLeft h hr hl
        rcases l with _ | ⟨ll, lv, lr, lc, ls⟩
        · exact absurd rfl hl
        simp only
        rw [bind_cost, free_out, e1]
        simp only [free_cost]
        rw [bind_cost, free_out, e2]
        simp only [free_cost]
        have h1 := bind_cost_le (f := fun l' => free (removeBalance (node l' v1 r1 c1 s1))) (ih il rl) (y := 0) (fun _ _ => by simp)
        have h2 := mu_lt (l := node ll lv lr lc ls) (v := v) (r := r) (c := c) (s := s) hb (fun h => (hc h).1) (fun h => (hcc h).1)
        omega

theorem Pre.height {x : F} {t : Node F} {b : Nat} (h : Pre x t b) : t.realHeight ≤ mu b t := by
  rcases t with _ | ⟨l, v, r, c, s⟩
  · exact absurd h (by simp [Pre])
  rcases h with ⟨h, -⟩ | ⟨rfl, h1, h2, -, b', rfl, h3, h4⟩
  · exact h.bounds.2
  · have i := h3.bounds.2
    have j := h4.bounds.2
    rw [h1] at i; rw [h2] at j
    simp [mu, color_node, realHeight] at *
    omega

/-- `remove` takes at most quadratically many steps in the black height. -/
theorem removeT_cost_le (fuel : Nat) {x : F} {t : Node F} {b : Nat} (hp : Pre x t b) (hs : t.toList.Pairwise (· ≤ ·))
    (hm : x ∈ t.toList) (hcount : t.toList.count x ≤ 1) : (removeT fuel t x).cost ≤ (mu b t + 2) ^ 2 := by
  induction fuel generalizing t b with
  | zero => simp [removeT]
  | succ f ih =>
    have hcon := (contains_iff hs x).2 hm
    have hh := hp.height
    have hcc := containsT_cost t x
    rcases t with _ | ⟨l, v, r, c, s⟩
    · exact absurd hp (by simp [Pre])
    obtain ⟨s1, s2, s3, s4⟩ := sorted_mid.1 (by simpa only [toList] using hs)
    rw [removeT.eq_def]
    simp only [tick_bind_cost]
    rw [bind_cost, containsT_out, hcon]
    simp only [Bool.not_true, Bool.false_eq_true, if_false, goLt_eq, decide_eq_true_eq]
    suffices h : _ ≤ (mu b (node l v r c s) + 1) ^ 2 by
      refine (Nat.add_le_add_left (Nat.add_le_add_left h _) _).trans ?_
      nlinarith
    by_cases hxv : x < v
    · rw [if_pos hxv]
      obtain ⟨h, hr⟩ : Inv (node l v r c s) b ∧ Ready (node l v r c s) := by
        rcases hp with hp | ⟨-, -, -, hvx, -⟩
        · exact hp
        · exact absurd hxv (not_lt.2 hvx)
      have hml : x ∈ l.toList := by
        simp only [toList, List.mem_append, List.mem_cons] at hm
        rcases hm with hm | hm | hm
        · exact hm
        · exact absurd hm hxv.ne
        · exact absurd (s4 x hm) (not_le.2 hxv)
      have hl : l ≠ nil := by rintro rfl; simp [toList] at hml
      obtain ⟨bb, e1, l1, v1, r1, c1, s1', b1, e2, il, rl, ir, hc, hb, hcc', ht, tl, htl⟩ := prepLeft h hr hl
      rw [toList, ← ht] at hs hcount
      have hm1 : x ∈ l1.toList := by rw [htl]; simp [hml]
      have hpre : Pre x l1 b1 := by
        cases l1 with
        | nil => exact absurd rl (by simp [Ready])
        | node => exact .inl ⟨il, rl⟩
      have h1 := ih hpre (sorted_mid.1 hs).1 hm1 (by rw [List.count_append] at hcount; omega)
      rw [bind_cost, free_out, e1]
      simp only [free_cost]
      rw [bind_cost, free_out, e2]
      simp only [free_cost]
      have h2 := bind_cost_le (f := fun l' => free (removeBalance (node l' v1 r1 c1 s1'))) h1 (y := 0) (fun _ _ => by simp)
      have h3 := mu_lt (l := l) (v := v) (r := r) (c := c) (s := s) hb (fun h => (hc h).1) (fun h => (hcc' h).1)
      have h4 : (mu b1 l1 + 2) ^ 2 ≤ (mu b (node l v r c s) + 1) ^ 2 := Nat.pow_le_pow_left (by omega) 2
      omega
    · rw [if_neg hxv]
      have hvx : v ≤ x := not_lt.1 hxv
      rcases prepRight hp hs hm hcount hvx with ⟨rfl, rfl, rfl, rfl⟩ | ⟨l0, v0, r0, c0, s0, e0, hr0, bb, e1, l1, v1, r1, c1,
        s1', b1, e2, il, ir, hpre, hc, hv1, hb, ht, hcc'⟩
      · rw [bind_cost, free_out]
        simp [color_nil, isNil]
      · rw [toList, ← ht] at hs hcount hm
        rw [bind_cost, free_out, e0]
        simp only [free_cost]
        have hb2 : (x =ᵇ v0 && r0.isNil) = false := by
          cases r0 with
          | nil => exact absurd rfl hr0
          | node => simp [isNil]
        rw [hb2]
        simp only [Bool.false_eq_true, if_false]
        rw [bind_cost, free_out, e1]
        simp only [free_cost]
        rw [bind_cost, free_out, e2]
        simp only [free_cost, goEq_eq, decide_eq_true_eq]
        have h3 := mu_lt (l := l) (v := v) (r := r) (c := c) (s := s) (l1 := r1) hb (fun h => (hc h).2) (fun h => (hcc' h).1)
        by_cases hx : x = v1
        · rw [if_pos hx]
          obtain ⟨ir1, ir2⟩ := ir hx
          have h5 := ir1.bounds.2
          have h6 := bind_cost_le (m := r1.minT) (f := fun m => do let r' ← removeMinT f r1; free (removeBalance (node l1 m r' c1 s1')))
            (minT_cost r1) (y := mu b1 r1 + 1) (fun m _ => by
              have := bind_cost_le (f := fun r' => free (removeBalance (node l1 m r' c1 s1'))) (removeMinT_cost_le f ir1 ir2) (y := 0)
                (fun _ _ => by simp)
              simpa using this)
          have h7 : r1.realHeight ≤ mu b1 r1 := h5
          have h8 : 2 * (mu b (node l v r c s)) ≤ (mu b (node l v r c s) + 1) ^ 2 := by nlinarith
          omega
        · rw [if_neg hx]
          have hm1 : x ∈ r1.toList := by
            have hlt : v1 < x := lt_of_le_of_ne hv1 (Ne.symm hx)
            simp only [List.mem_append, List.mem_cons] at hm
            rcases hm with hm | hm | hm
            · exact absurd ((sorted_mid.1 hs).2.2.1 x hm) (not_le.2 hlt)
            · exact absurd hm hx
            · exact hm
          have h1 := ih (hpre hx) (sorted_mid.1 hs).2.1 hm1 (by rw [List.count_append, List.count_cons] at hcount; omega)
          have h2 := bind_cost_le (f := fun r' => free (removeBalance (node l1 v1 r' c1 s1'))) h1 (y := 0) (fun _ _ => by simp)
          have h4 : (mu b1 r1 + 2) ^ 2 ≤ (mu b (node l v r c s) + 1) ^ 2 := Nat.pow_le_pow_left (by omega) 2
          omega

/-- The colour of the root does not change the number of steps. -/
theorem removeT_toggle_cost (fuel : Nat) (t : Node F) (x : F) : (removeT fuel t.toggle x).cost = (removeT fuel t x).cost := by
  cases fuel with
  | zero => rfl
  | succ f =>
    rcases t with _ | ⟨l, v, r, c, s⟩
    · rfl
    have hct : containsT (node l v r c s).toggle x = containsT (node l v r c s) x := rfl
    have tailL : ∀ m : Node F, (match m.toggle with
        | nil => free Go.panic
        | node l v r c s => do
          let l' ← removeT f l x
          free (removeBalance (node l' v r c s)) : Timed (Node F)).cost = (match m with
        | nil => free Go.panic
        | node l v r c s => do
          let l' ← removeT f l x
          free (removeBalance (node l' v r c s)) : Timed (Node F)).cost := by
      intro m
      cases m with
      | nil => rfl
      | node l v r c s =>
        simp only [toggle]
        rw [bind_cost, bind_cost]
        cases (removeT f l x).out <;> rfl
    have tailR : ∀ m : Node F, (match m.toggle with
        | nil => free Go.panic
        | node l v r c s =>
          if x =ᵇ v then do
            let m ← r.minT
            let r' ← removeMinT f r
            free (removeBalance (node l m r' c s))
          else do
            let r' ← removeT f r x
            free (removeBalance (node l v r' c s)) : Timed (Node F)).cost = (match m with
        | nil => free Go.panic
        | node l v r c s =>
          if x =ᵇ v then do
            let m ← r.minT
            let r' ← removeMinT f r
            free (removeBalance (node l m r' c s))
          else do
            let r' ← removeT f r x
            free (removeBalance (node l v r' c s)) : Timed (Node F)).cost := by
      intro m
      cases m with
      | nil => rfl
      | node l v r c s =>
        simp only [toggle]
        split
        · rw [bind_cost, bind_cost]
          cases r.minT.out with
          | val m =>
            simp only
            rw [bind_cost, bind_cost]
            cases (removeMinT f r).out <;> rfl
          | panic => rfl
          | hang => rfl
        · rw [bind_cost, bind_cost]
          cases (removeT f r x).out <;> rfl
    have step : ∀ {g : Go (Node F)} {k : Node F → Timed (Node F)}, (∀ m : Node F, (k m.toggle).cost = (k m).cost) →
        (free (tog g) >>= k).cost = (free g >>= k).cost := by
      intro g k hk
      rw [bind_cost, bind_cost]
      cases g with
      | val m => simpa using hk m
      | panic => rfl
      | hang => rfl
    have pick : ∀ (bb : Bool) (g : Go (Node F)) (m : Node F), (if bb then tog g else .val m.toggle) = tog (if bb then g else .val m) := by
      intro bb g m; cases bb <;> rfl
    rw [removeT.eq_def, removeT.eq_def (f + 1)]
    simp only [tick_bind_cost]
    rw [hct, bind_cost, bind_cost]
    cases (containsT (node l v r c s) x).out with
    | panic => rfl
    | hang => rfl
    | val cc =>
      cases cc
      · rfl
      simp only [toggle, Bool.not_true, Bool.false_eq_true, if_false]
      rw [show node l v r (!c) s = (node l v r c s).toggle from rfl]
      congr 2
      split
      · rw [bind_cost, bind_cost]
        cases l.blackBlack with
        | panic => rfl
        | hang => rfl
        | val bb =>
          simp only [free_out, free_cost]
          rw [moveRedLeft_toggle, pick, step tailL]
      · rw [rotateRight_toggle, pick]
        rw [step]
        intro m
        cases m with
        | nil => rfl
        | node l v r c s =>
          simp only [toggle]
          split
          · rfl
          · rw [bind_cost, bind_cost]
            cases r.blackBlack with
            | panic => rfl
            | hang => rfl
            | val bb =>
              simp only [free_out, free_cost]
              rw [show node l v r (!c) s = (node l v r c s).toggle from rfl, moveRedRight_toggle, pick, step tailR]

/-- `Remove` of a value stored at most once takes at most `(2 log₂ (n+1) + 3)²` steps. -/
theorem removeT_cost_root (fuel : Nat) (x : F) {t : Node F} (h : RootInv t) (hs : t.toList.Pairwise (· ≤ ·))
    (hcount : t.toList.count x ≤ 1) : (removeT fuel t x).cost ≤ (2 * Nat.log 2 (t.toList.length + 1) + 3) ^ 2 := by
  have height : ∀ {t : Node F} {b : Nat}, Inv t b → mu b t ≤ 2 * Nat.log 2 (t.toList.length + 1) + 1 := by
    intro t b hi
    have : b ≤ Nat.log 2 (t.toList.length + 1) := Nat.le_log_of_pow_le (by norm_num) hi.bounds.1
    unfold mu; split <;> omega
  by_cases hm : x ∈ t.toList
  · have hne : t ≠ nil := by rintro rfl; simp [toList] at hm
    have base : ∀ {t : Node F} {b : Nat}, Inv t b → Ready t → t.toList.Pairwise (· ≤ ·) → t.toList.count x ≤ 1 →
        x ∈ t.toList → (removeT fuel t x).cost ≤ (2 * Nat.log 2 (t.toList.length + 1) + 3) ^ 2 := by
      intro t b hi hr hs hc hm
      have hp : Pre x t b := by
        cases t with
        | nil => exact absurd hr (by simp [Ready])
        | node => exact .inl ⟨hi, hr⟩
      refine (removeT_cost_le fuel hp hs hm hc).trans (Nat.pow_le_pow_left ?_ 2)
      have := height hi
      omega
    obtain ⟨b, ⟨hi, hr⟩ | ⟨hi, hr⟩⟩ := h.ready hne
    · exact base hi hr hs hcount hm
    · have := base hi hr (by rwa [toggle_toList]) (by rwa [toggle_toList]) (by rwa [toggle_toList])
      rwa [removeT_toggle_cost, toggle_toList] at this
  · have hcf : t.contains x = false := by
      cases hc : t.contains x
      · rfl
      · exact absurd ((contains_iff hs x).1 hc) hm
    have hh : t.realHeight ≤ 2 * Nat.log 2 (t.toList.length + 1) + 1 := by
      obtain ⟨b, h | h⟩ := h
      · exact h.bounds.2.trans (height h)
      · have h1 := h.bounds.2.trans (height h)
        rw [toggle_toList] at h1
        have e : t.toggle.realHeight = t.realHeight := by cases t <;> rfl
        omega
    cases fuel with
    | zero => simp [removeT]
    | succ f =>
      rw [removeT.eq_def]
      simp only [tick_bind_cost]
      rw [bind_cost, containsT_out, hcf]
      have := containsT_cost t x
      simp only [Bool.not_false, if_true, free_cost]
      nlinarith

omit [LinearOrder F] in
theorem RootInv.height {t : Node F} (h : RootInv t) : t.realHeight ≤ 2 * Nat.log 2 (t.toList.length + 1) + 1 := by
  have height : ∀ {t : Node F} {b : Nat}, Inv t b → t.realHeight ≤ 2 * Nat.log 2 (t.toList.length + 1) + 1 := by
    intro t b hi
    have h1 : b ≤ Nat.log 2 (t.toList.length + 1) := Nat.le_log_of_pow_le (by norm_num) hi.bounds.1
    have h2 := hi.bounds.2
    split at h2 <;> omega
  obtain ⟨b, h | h⟩ := h
  · exact height h
  · have h1 := height h
    have e : t.toggle.realHeight = t.realHeight ∧ t.toggle.toList = t.toList := by cases t <;> exact ⟨rfl, rfl⟩
    rwa [e.1, e.2] at h1

end Rb.Node

/-! ### Heaps -/

namespace Heap
variable {F : Type}

theorem swap_len {m : Mem F} {h : Heap F} {i j : Nat} {r : Mem F × Heap F} (e : swap m h i j = .val r) : r.2.len = h.len := by
  unfold swap at e
  split at e
  · injection e with e; subst e; simp [Heap.len]
  · cases e

theorem less_val {m : Mem F} {h : Heap F} {i j : Nat} {b : Bool} (e : less m h i j = .val b) : i < h.len ∧ j < h.len := by
  unfold less at e
  split at e
  · rename_i a b h1 h2
    exact ⟨(List.getElem?_eq_some_iff.1 h1).1, (List.getElem?_eq_some_iff.1 h2).1⟩
  · cases e

theorem up_len (fuel : Nat) : ∀ {m : Mem F} {h : Heap F} {j : Nat} {r : Mem F × Heap F}, up fuel m h j = .val r → r.2.len = h.len := by
  induction fuel with
  | zero => intro m h j r e; cases e
  | succ fuel ih =>
    intro m h j r e
    rw [up] at e
    split at e
    · injection e with e; subst e; rfl
    · obtain ⟨b, -, e⟩ := Go.bind_eq_val.1 e
      split at e
      · obtain ⟨q, e2, e⟩ := Go.bind_eq_val.1 e
        rw [ih e, swap_len e2]
      · injection e with e; subst e; rfl

theorem down_len (fuel : Nat) : ∀ {m : Mem F} {h : Heap F} {i n : Nat} {r : Mem F × Heap F × Nat}, down fuel m h i n = .val r →
    r.2.1.len = h.len := by
  induction fuel with
  | zero => intro m h i n r e; cases e
  | succ fuel ih =>
    intro m h i n r e
    rw [down] at e
    split at e
    · injection e with e; subst e; rfl
    · obtain ⟨j, -, e⟩ := Go.bind_eq_val.1 e
      obtain ⟨b, -, e⟩ := Go.bind_eq_val.1 e
      split at e
      · obtain ⟨q, e2, e⟩ := Go.bind_eq_val.1 e
        rw [ih e, swap_len e2]
      · injection e with e; subst e; rfl

theorem upT_cost_log (fuel : Nat) : ∀ (m : Mem F) (h : Heap F) (j : Nat), (upT fuel m h j).cost ≤ Nat.log 2 (j + 1) + 1 := by
  induction fuel with
  | zero => intro m h j; simp [upT]
  | succ fuel ih =>
    intro m h j
    rw [upT, tick_bind_cost]
    simp only
    split
    · simp
    · rename_i hne
      have hj : (j + 1) / 2 = (j - 1) / 2 + 1 := by omega
      have hl : Nat.log 2 (j + 1) = Nat.log 2 ((j - 1) / 2 + 1) + 1 := by
        rw [Nat.log_of_one_lt_of_le (by norm_num) (by omega), hj]
      have := bind_cost_le (m := free (less m h j ((j - 1) / 2))) (x := 0) (y := Nat.log 2 (j + 1))
        (f := fun b => if b then do
            let r ← free (swap m h ((j - 1) / 2) j)
            upT fuel r.1 r.2 ((j - 1) / 2)
          else free (.val (m, h))) (by simp) (fun b _ => by
            cases b
            · simp
            · simp only [if_true]
              have := bind_cost_le (m := free (swap m h ((j - 1) / 2) j)) (x := 0) (y := Nat.log 2 (j + 1))
                (f := fun r => upT fuel r.1 r.2 ((j - 1) / 2)) (by simp) (fun r _ => by
                  have := ih r.1 r.2 ((j - 1) / 2); omega)
              simpa using this)
      omega

theorem upT_cost (fuel : Nat) (m : Mem F) (h : Heap F) (j : Nat) : (upT fuel m h j).cost ≤ Nat.log 2 h.len + 1 := by
  by_cases hj : j < h.len
  · exact (upT_cost_log fuel m h j).trans (by have := Nat.log_mono_right (b := 2) (show j + 1 ≤ h.len by omega); omega)
  · cases fuel with
    | zero => simp [upT]
    | succ fuel =>
      rw [upT, tick_bind_cost]
      simp only
      split
      · simp
      · rw [bind_cost, free_out]
        have : ∀ b, less m h j ((j - 1) / 2) ≠ .val b := fun b e => hj (less_val e).1
        cases hb : less m h j ((j - 1) / 2) with
        | val b => exact absurd hb (this b)
        | panic => simp
        | hang => simp

theorem downT_cost_log (fuel : Nat) : ∀ (m : Mem F) (h : Heap F) (i n : Nat), (downT fuel m h i n).cost ≤ Nat.log 2 (n / (i + 1)) + 1 := by
  induction fuel with
  | zero => intro m h i n; simp [downT]
  | succ fuel ih =>
    intro m h i n
    rw [downT, tick_bind_cost]
    simp only
    split
    · simp
    · rename_i hlt
      have hl : ∀ j, 2 * i + 1 ≤ j → Nat.log 2 (n / (j + 1)) + 1 ≤ Nat.log 2 (n / (i + 1)) := by
        intro j hj
        have h1 : n / (j + 1) ≤ n / (2 * (i + 1)) := Nat.div_le_div_left (by omega) (by omega)
        have h2 : n / (2 * (i + 1)) = n / (i + 1) / 2 := by rw [mul_comm, Nat.div_div_eq_div_mul]
        have h3 : 2 ≤ n / (i + 1) := (Nat.le_div_iff_mul_le (by omega)).2 (by omega)
        rw [Nat.log_of_one_lt_of_le (by norm_num) h3, ← h2]
        have := Nat.log_mono_right (b := 2) h1
        omega
      suffices h : _ ≤ Nat.log 2 (n / (i + 1)) from (Nat.add_le_add_left h 1).trans (by omega)
      refine (bind_cost_le (x := 0) (y := Nat.log 2 (n / (i + 1))) (by simp) (fun j hj => ?_)).trans (by omega)
      have hjge : 2 * i + 1 ≤ j := by
        rw [free_out] at hj
        split at hj
        · obtain ⟨b, -, hj⟩ := Go.bind_eq_val.1 hj
          injection hj with hj
          subst hj
          split <;> omega
        · injection hj with hj; omega
      refine (bind_cost_le (x := 0) (y := Nat.log 2 (n / (i + 1))) (by simp) (fun b hb => ?_)).trans (by omega)
      cases b
      · simp
      · simp only [if_true]
        refine (bind_cost_le (x := 0) (y := Nat.log 2 (n / (i + 1))) (by simp) (fun r _ => ?_)).trans (by omega)
        have := ih r.1 r.2 j n
        have := hl j hjge
        omega

theorem downT_cost (fuel : Nat) (m : Mem F) (h : Heap F) (i n : Nat) : (downT fuel m h i n).cost ≤ Nat.log 2 n + 1 :=
  (downT_cost_log fuel m h i n).trans (by have := Nat.log_mono_right (b := 2) (Nat.div_le_self n (i + 1)); omega)

theorem pushT_cost (m : Mem F) (h : Heap F) (a : Nat) : (pushT m h a).cost ≤ Nat.log 2 (h.len + 1) + 1 := by
  have := upT_cost ((rawPush m h a).2.len + 1) (rawPush m h a).1 (rawPush m h a).2 ((rawPush m h a).2.len - 1)
  have e : (rawPush m h a).2.len = h.len + 1 := by simp [rawPush, Heap.len]
  exact this.trans (by rw [e])

theorem push_len {m : Mem F} {h : Heap F} {a : Nat} {r : Mem F × Heap F} (e : push m h a = .val r) : r.2.len = h.len + 1 := by
  rw [up_len _ e]; simp [rawPush, Heap.len]

theorem rawPop_len {m : Mem F} {h : Heap F} {r : Nat × Mem F × Heap F} (e : rawPop m h = .val r) : r.2.2.len + 1 = h.len := by
  unfold rawPop at e
  split at e
  · cases e
  · rename_i a ha
    injection e with e; subst e
    have : h.items ≠ [] := by rintro c; rw [c] at ha; simp at ha
    have := List.length_pos_iff.2 this
    simp [Heap.len]; omega

theorem popT_cost (m : Mem F) (h : Heap F) : (popT m h).cost ≤ Nat.log 2 h.len + 1 := by
  unfold popT
  split
  · simp
  · refine (bind_cost_le (x := 0) (y := Nat.log 2 h.len + 1) (by simp) (fun r _ => ?_)).trans (by omega)
    refine (bind_cost_le (x := Nat.log 2 h.len + 1) (y := 0) ?_ (fun r _ => by simp)).trans (by omega)
    refine (downT_cost _ _ _ _ _).trans ?_
    have := Nat.log_mono_right (b := 2) (Nat.sub_le h.len 1)
    omega

theorem pop_len {m : Mem F} {h : Heap F} {r : Nat × Mem F × Heap F} (e : pop m h = .val r) : r.2.2.len + 1 = h.len := by
  unfold pop at e
  split at e
  · cases e
  · obtain ⟨q, e1, e⟩ := Go.bind_eq_val.1 e
    obtain ⟨q', e2, e⟩ := Go.bind_eq_val.1 e
    rw [rawPop_len e, down_len _ e2, swap_len e1]

theorem fixT_cost (m : Mem F) (h : Heap F) (i : Int) : (fixT m h i).cost ≤ 2 * Nat.log 2 h.len + 2 := by
  unfold fixT
  split
  · simp
  · refine (bind_cost_le (downT_cost _ _ _ _ _) (y := Nat.log 2 h.len + 1) (fun r hr => ?_)).trans (by omega)
    rw [downT_out] at hr
    split
    · simp
    · refine (upT_cost _ _ _ _).trans ?_
      rw [down_len _ hr]

theorem fix_len {m : Mem F} {h : Heap F} {i : Int} {r : Mem F × Heap F} (e : fix m h i = .val r) : r.2.len = h.len := by
  unfold fix at e
  split at e
  · injection e with e; subst e; rfl
  · obtain ⟨q, e1, e⟩ := Go.bind_eq_val.1 e
    split at e
    · injection e with e; subst e; exact down_len _ e1
    · rw [up_len _ e, down_len _ e1]

theorem removeAtT_cost (m : Mem F) (h : Heap F) (i : Int) : (removeAtT m h i).cost ≤ 2 * Nat.log 2 h.len + 2 := by
  unfold removeAtT
  split
  · simp
  · refine (bind_cost_le (x := 2 * Nat.log 2 h.len + 2) (y := 0) ?_ (fun r _ => ?_)).trans (by omega)
    · split
      · refine (bind_cost_le (x := 0) (y := 2 * Nat.log 2 h.len + 2) (by simp) (fun r hr => ?_)).trans (by omega)
        refine (bind_cost_le (downT_cost _ _ _ _ _) (y := Nat.log 2 h.len + 1) (fun q hq => ?_)).trans ?_
        · rw [downT_out] at hq
          rw [free_out] at hr
          split
          · simp
          · refine (upT_cost _ _ _ _).trans ?_
            rw [down_len _ hq, swap_len hr]
        · have := Nat.log_mono_right (b := 2) (Nat.sub_le h.len 1)
          omega
      · simp
    · exact (bind_cost_le (x := 0) (y := 0) (by simp) (fun _ _ => by simp))

theorem removeAt_len {m : Mem F} {h : Heap F} {i : Int} {r : Mem F × Heap F} (e : removeAt m h i = .val r) : r.2.len + 1 = h.len := by
  unfold removeAt at e
  split at e
  · cases e
  · obtain ⟨q, e1, e⟩ := Go.bind_eq_val.1 e
    obtain ⟨q', e2, e⟩ := Go.bind_eq_val.1 e
    injection e with e; subst e
    rw [rawPop_len e2]
    split at e1
    · obtain ⟨a, e3, e1⟩ := Go.bind_eq_val.1 e1
      obtain ⟨b, e4, e1⟩ := Go.bind_eq_val.1 e1
      split at e1
      · injection e1 with e1; subst e1; rw [down_len _ e4, swap_len e3]
      · rw [up_len _ e1, down_len _ e4, swap_len e3]
    · injection e1 with e1; subst e1; rfl

end Heap

namespace HeapMedian
open Heap
variable {F : Type} [GoOrd F]

/-- Number of items in the two heaps. -/
def HM.stored (s : HM F) : Nat := s.low.len + s.high.len

omit [GoOrd F] in
theorem rebalanceT_cost (s : HM F) (item : Nat) : (rebalanceT s item).cost ≤ 2 * Nat.log 2 (s.stored + 1) + 2 := by
  have hm : ∀ n, n ≤ s.stored + 1 → Nat.log 2 n ≤ Nat.log 2 (s.stored + 1) := fun n h => Nat.log_mono_right h
  unfold rebalanceT
  split
  · refine (bind_cost_le (popT_cost _ _) (y := Nat.log 2 (s.stored + 1) + 1) (fun r hr => ?_)).trans ?_
    · refine (bind_cost_le (pushT_cost _ _ _) (y := 0) (fun _ _ => by simp)).trans ?_
      have := hm (s.low.len + 1) (by unfold HM.stored; omega); omega
    · have := hm s.high.len (by unfold HM.stored; omega); omega
  · split
    · refine (bind_cost_le (popT_cost _ _) (y := Nat.log 2 (s.stored + 1) + 1) (fun r hr => ?_)).trans ?_
      · refine (bind_cost_le (pushT_cost _ _ _) (y := 0) (fun _ _ => by simp)).trans ?_
        have := hm (s.high.len + 1) (by unfold HM.stored; omega); omega
      · have := hm s.low.len (by unfold HM.stored; omega); omega
    · simp

theorem replaceT_cost (s : HM F) (item : Nat) (x : F) : (replaceT s item x).cost ≤ 3 * Nat.log 2 (s.stored + 1) + 3 := by
  have hl : Nat.log 2 s.low.len ≤ Nat.log 2 (s.stored + 1) := Nat.log_mono_right (by unfold HM.stored; omega)
  have hh : Nat.log 2 s.high.len ≤ Nat.log 2 (s.stored + 1) := Nat.log_mono_right (by unfold HM.stored; omega)
  have hl' : Nat.log 2 (s.low.len + 1) ≤ Nat.log 2 (s.stored + 1) := Nat.log_mono_right (by unfold HM.stored; omega)
  have hh' : Nat.log 2 (s.high.len + 1) ≤ Nat.log 2 (s.stored + 1) := Nat.log_mono_right (by unfold HM.stored; omega)
  unfold replaceT
  split
  · refine (bind_cost_le (x := 0) (y := 3 * Nat.log 2 (s.stored + 1) + 3) (by simp) (fun p _ => ?_)).trans (by omega)
    split
    · refine (bind_cost_le (fixT_cost _ _ _) (y := 0) (fun _ _ => by simp)).trans (by omega)
    · split
      · refine (bind_cost_le (removeAtT_cost _ _ _) (y := Nat.log 2 (s.stored + 1) + 1) (fun r _ => ?_)).trans (by omega)
        exact (bind_cost_le (pushT_cost _ _ _) (y := 0) (fun _ _ => by simp)).trans (by omega)
      · refine (bind_cost_le (removeAtT_cost _ _ _) (y := Nat.log 2 (s.stored + 1) + 1) (fun r _ => ?_)).trans (by omega)
        exact (bind_cost_le (pushT_cost _ _ _) (y := 0) (fun _ _ => by simp)).trans (by omega)
  · refine (bind_cost_le (x := 0) (y := 3 * Nat.log 2 (s.stored + 1) + 3) (by simp) (fun p _ => ?_)).trans (by omega)
    split
    · refine (bind_cost_le (fixT_cost _ _ _) (y := 0) (fun _ _ => by simp)).trans (by omega)
    · refine (bind_cost_le (removeAtT_cost _ _ _) (y := Nat.log 2 (s.stored + 1) + 1) (fun r _ => ?_)).trans (by omega)
      exact (bind_cost_le (pushT_cost _ _ _) (y := 0) (fun _ _ => by simp)).trans (by omega)

theorem replace_stored {s s' : HM F} {item : Nat} {x : F} (e : replace s item x = .val s') : s'.stored = s.stored := by
  unfold replace at e
  split at e
  · obtain ⟨p, -, e⟩ := Go.bind_eq_val.1 e
    split at e
    · obtain ⟨r, e1, e⟩ := Go.bind_eq_val.1 e
      injection e with e; subst e
      have := fix_len e1
      simp only [HM.stored]; omega
    · split at e
      · obtain ⟨r, e1, e⟩ := Go.bind_eq_val.1 e
        obtain ⟨q, e2, e⟩ := Go.bind_eq_val.1 e
        injection e with e; subst e
        have := removeAt_len e1; have := push_len e2
        simp only [HM.stored]; omega
      · obtain ⟨r, e1, e⟩ := Go.bind_eq_val.1 e
        obtain ⟨q, e2, e⟩ := Go.bind_eq_val.1 e
        injection e with e; subst e
        have := removeAt_len e1; have := push_len e2
        simp only [HM.stored]; omega
  · obtain ⟨p, -, e⟩ := Go.bind_eq_val.1 e
    split at e
    · obtain ⟨r, e1, e⟩ := Go.bind_eq_val.1 e
      injection e with e; subst e
      have := fix_len e1
      simp only [HM.stored]; omega
    · obtain ⟨r, e1, e⟩ := Go.bind_eq_val.1 e
      obtain ⟨q, e2, e⟩ := Go.bind_eq_val.1 e
      injection e with e; subst e
      have := removeAt_len e1; have := push_len e2
      simp only [HM.stored]; omega

theorem insertT_cost (s : HM F) (x : F) : (insertT s x).cost ≤ Nat.log 2 (s.stored + 1) + 1 := by
  have hl' : Nat.log 2 (s.low.len + 1) ≤ Nat.log 2 (s.stored + 1) := Nat.log_mono_right (by unfold HM.stored; omega)
  have hh' : Nat.log 2 (s.high.len + 1) ≤ Nat.log 2 (s.stored + 1) := Nat.log_mono_right (by unfold HM.stored; omega)
  unfold insertT
  refine (bind_cost_le (x := 0) (y := Nat.log 2 (s.stored + 1) + 1) (by simp) (fun b _ => ?_)).trans (by omega)
  cases b
  · simp only [Bool.false_eq_true, if_false]
    exact (bind_cost_le (pushT_cost _ _ _) (y := 0) (fun _ _ => by simp)).trans (by omega)
  · simp only [if_true]
    exact (bind_cost_le (pushT_cost _ _ _) (y := 0) (fun _ _ => by simp)).trans (by omega)

theorem insert_stored {s : HM F} {x : F} {r : HM F × Nat} (e : insert s x = .val r) : r.1.stored = s.stored + 1 := by
  unfold insert at e
  obtain ⟨b, -, e⟩ := Go.bind_eq_val.1 e
  split at e
  · obtain ⟨q, e2, e⟩ := Go.bind_eq_val.1 e
    injection e with e; subst e
    have := push_len e2
    simp only [HM.stored]; omega
  · obtain ⟨q, e2, e⟩ := Go.bind_eq_val.1 e
    injection e with e; subst e
    have := push_len e2
    simp only [HM.stored]; omega

/-- `Push` in any state takes logarithmically many heap steps. -/
theorem pushT_cost (s : HM F) (x : F) : (pushT s x).cost ≤ 5 * Nat.log 2 (s.stored + 2) + 5 := by
  have hm : Nat.log 2 (s.stored + 1) ≤ Nat.log 2 (s.stored + 2) := Nat.log_mono_right (by omega)
  unfold pushT
  split
  · refine (bind_cost_le (x := 0) (y := 5 * Nat.log 2 (s.stored + 2) + 5) (by simp) (fun g hg => ?_)).trans (by omega)
    rcases g with e | ⟨item, q⟩
    · simp
    · simp only
      refine (bind_cost_le (replaceT_cost _ _ _) (y := 2 * Nat.log 2 (s.stored + 1) + 2) (fun s' hs' => ?_)).trans ?_
      · refine (bind_cost_le (rebalanceT_cost _ _) (y := 0) (fun _ _ => by simp)).trans ?_
        rw [replaceT_out] at hs'
        have := replace_stored hs'
        rw [this]; simp [HM.stored]
      · have : ({ s with queue := q } : HM F).stored = s.stored := rfl
        rw [this]; omega
  · refine (bind_cost_le (insertT_cost _ _) (y := 2 * Nat.log 2 (s.stored + 2) + 2) (fun r hr => ?_)).trans (by omega)
    refine (bind_cost_le (rebalanceT_cost _ _) (y := 0) (fun _ _ => by simp)).trans ?_
    rw [insertT_out] at hr
    rw [insert_stored hr]

end HeapMedian
end Verif

/-! ### `Quantile` -/

namespace Verif.Quant
open Verif Verif.Spec Timed
variable {F : Type} [LinearOrder F] {st : Statistic F} {okAdd okRem : Multiset F → F → Prop} {Rep : Multiset F → st.σ → Prop}

theorem pushT_add_cost (T : Timing st) (x : F) (q : Quantile st) : (Quantile.pushT.add T x q).cost = (T.add q.statistic x).cost := by
  unfold Quantile.pushT.add
  rw [bind_cost]
  cases (T.add q.statistic x).out <;> rfl

theorem pushT_put_cost (T : Timing st) (x : F) (q : Quantile st) : (Quantile.pushT.put T x q).cost ≤ (T.add q.statistic x).cost := by
  unfold Quantile.pushT.put
  rw [bind_cost, free_out, free_cost, Nat.zero_add]
  rcases q.queue.put x with (e | s) | _ | _
  · simp
  · exact (pushT_add_cost T x _).le
  · simp
  · simp

/-- If a removal of the oldest value costs at most `A` and an addition at most `B`, `Push` costs at most `A + B`. -/
theorem pushT_cost_le {w : Nat} {i : Int} {ys : List F} (T : Timing st) {q : Quantile st} (h : Inv Rep w i (lastN w ys) q) (x : F) {A B : Nat}
    (hr : w ≠ 0 → (lastN w ys).length = w → ∀ z zs, lastN w ys = z :: zs → (T.remove q.statistic z).cost ≤ A ∧
      ∀ s, st.remove q.statistic z = .val s → (T.add s x).cost ≤ B)
    (ha : w = 0 ∨ (lastN w ys).length ≠ w → (T.add q.statistic x).cost ≤ B) : (q.pushT T x).cost ≤ A + B := by
  unfold Quantile.pushT
  by_cases hw : w = 0
  · rw [if_neg (by simp [h.window, hw]), pushT_add_cost]
    have := ha (.inl hw); omega
  · rw [if_pos (by rw [h.window]; exact_mod_cast hw)]
    by_cases hf : (lastN w ys).length = w
    · rw [if_pos (by rw [Ring.len, h.queue hw, h.window, hf])]
      rcases hx : lastN w ys with _ | ⟨z, zs⟩
      · rw [hx] at hf; simp at hf; omega
      · obtain ⟨h1, h2⟩ := hr hw hf z zs hx
        have hget : q.queue.get = .val (.ok (z, { q.queue with items := zs })) := Ring.get_ok h.live (by rw [h.queue hw, hx])
        rw [bind_cost, free_out, hget, free_cost, Nat.zero_add]
        simp only
        refine bind_cost_le h1 (fun s hs => (pushT_put_cost T x _).trans (h2 s ?_))
        rwa [T.remove_out] at hs
    · rw [if_neg (by rw [Ring.len, h.queue hw, h.window]; exact_mod_cast hf)]
      refine (pushT_put_cost T x q).trans ?_
      have := ha (.inr hf); omega

/-- When the window is full, `Push` costs at least the removal of its oldest value. -/
theorem pushT_cost_ge {w : Nat} {i : Int} {z : F} {zs : List F} (T : Timing st) {q : Quantile st} (h : Inv Rep w i (z :: zs) q) (hw : w ≠ 0)
    (hl : (z :: zs).length = w) (x : F) : (T.remove q.statistic z).cost ≤ (q.pushT T x).cost := by
  unfold Quantile.pushT
  rw [if_pos (by rw [h.window]; exact_mod_cast hw), if_pos (by rw [Ring.len, h.queue hw, h.window, hl])]
  have hget : q.queue.get = .val (.ok (z, { q.queue with items := zs })) := Ring.get_ok h.live (h.queue hw)
  rw [bind_cost, free_out, hget, free_cost, Nat.zero_add]
  simp only
  rw [bind_cost]
  omega

omit [LinearOrder F] in
theorem valueT_cost [GoOrd F] (O : FOps F) (T : Timing st) (q : Quantile st) (x : F) {B : Nat}
    (h : ∀ k, (T.select q.statistic k).cost ≤ B) : (q.valueT O T x).cost ≤ 2 * B := by
  have hs : ∀ k, (q.selT T k).cost ≤ B := by
    intro k
    unfold Quantile.selT
    refine (bind_cost_le (h k) (y := 0) (fun a _ => ?_)).trans (by omega)
    cases a <;> simp
  have one : ∀ (k : Int) (f : F → Except Err F), (do let v ← q.selT T k; pure (f v) : Timed (Except Err F)).cost ≤ 2 * B := by
    intro k f
    refine (bind_cost_le (hs k) (y := 0) (fun a _ => by simp)).trans (by omega)
  have two : ∀ (k l : Int) (f : F → F → Except Err F),
      (do let v ← q.selT T k; let u ← q.selT T l; pure (f v u) : Timed (Except Err F)).cost ≤ 2 * B := by
    intro k l f
    refine (bind_cost_le (hs k) (y := B) (fun a _ => ?_)).trans (by omega)
    exact (bind_cost_le (hs l) (y := 0) (fun a _ => by simp)).trans (by omega)
  unfold Quantile.valueT
  split
  · simp
  · simp only
    repeat' split
    all_goals first | exact one _ _ | exact two _ _ _ | simp

end Verif.Quant
