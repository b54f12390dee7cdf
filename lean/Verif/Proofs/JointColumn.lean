import Verif.Proofs.JointFPState
import Verif.Proofs.MomentFPState
import Verif.Proofs.Rounding

/-! # One variable of the joint core against the moment core -/

namespace Verif.JFP
open Verif.Spec Verif.MathUtil
open Verif.FP (Arith mst roomM Rounding)
open Verif.Joint (Tuple Map Core Config eq Under visited mem_visited)

variable {F : Type} (A : Arith F)

theorem lastN_map {α β : Type} (f : α → β) (w : Nat) (l : List α) : lastN w (l.map f) = (lastN w l).map f := by
  unfold lastN
  by_cases h : w = 0
  · rw [if_pos h, if_pos h]
  · rw [if_neg h, if_neg h, List.length_map, List.map_drop]

/-- The values of one variable. -/
def column (z : F) (i : Nat) (xs : List (List F)) : List F := xs.map fun x => x.getD i z

theorem getD_zipWith {α β γ : Type} (f : α → β → γ) {l : List α} {l' : List β} {i : Nat} (h : i < l.length) (h' : i < l'.length) (a : α) (b : β)
    (c : γ) : (List.zipWith f l l').getD i c = f (l.getD i a) (l'.getD i b) := by
  simp [List.getD_eq_getElem?_getD, h, h']

theorem roomG_length {n w : Nat} {pts : List (List F)} (hl : ∀ x ∈ pts, x.length = n) {p : List F × (Tuple → F)} (hp : p.1.length = n) :
    (roomG A n w pts p).1.length = n := by
  unfold roomG
  by_cases h : w ≠ 0 ∧ (lastN w pts).length = w
  · rw [if_pos h]
    match hm : lastN w pts with
    | [] => simp
    | [_] => simp
    | y :: z :: ys =>
      have hy : y ∈ pts := by
        have : y ∈ lastN w pts := by rw [hm]; exact List.mem_cons_self
        unfold lastN at this
        rw [if_neg h.1] at this
        exact List.mem_of_mem_drop this
      simp [hl y hy, hp]
  · rw [if_neg h]; exact hp

theorem gst_length {n w : Nat} {d : Option F} (xs : List (List F)) (hl : ∀ x ∈ xs, x.length = n) : (gst A n w d xs).1.length = n := by
  induction xs using List.reverseRecOn with
  | nil => simp [gst_nil]
  | append_singleton xs x ih =>
    have hl' : ∀ y ∈ xs, y.length = n := fun y hy => hl y (by simp [hy])
    have h1 := roomG_length A (w := w) hl' (ih hl')
    have hx := hl x (by simp)
    cases d with
    | none => rw [gst_add]; simp [h1, hx]
    | some d => rw [gst_decay]; simp [h1, hx]

/-- Room is made alike. -/
theorem room_col {n w : Nat} {pts : List (List F)} (hl : ∀ x ∈ pts, x.length = n) {i : Nat} (hi : i < n) {p : List F × (Tuple → F)}
    {q : F × (Nat → F)} (hp : p.1.length = n) (h : p.1.getD i (A.ofInt 0) = q.1) :
    (roomG A n w pts p).1.getD i (A.ofInt 0) = (roomM A w (column (A.ofInt 0) i pts) q).1 := by
  unfold roomG roomM column
  rw [lastN_map, List.length_map]
  by_cases hc : w ≠ 0 ∧ (lastN w pts).length = w
  · rw [if_pos hc, if_pos hc]
    match hm : lastN w pts with
    | [] => simp [List.getD_eq_getElem?_getD, hi]
    | [_] => simp [List.getD_eq_getElem?_getD, hi]
    | y :: z :: ys =>
      have hy : y ∈ pts := by
        have : y ∈ lastN w pts := by rw [hm]; exact List.mem_cons_self
        unfold lastN at this
        rw [if_neg hc.1] at this
        exact List.mem_of_mem_drop this
      simp only [List.map_cons]
      rw [getD_zipWith _ (by rw [hl y hy]; exact hi) (by rw [hp]; exact hi) (A.ofInt 0) (A.ofInt 0), h]
      simp
  · rw [if_neg hc, if_neg hc]; exact h

/-- The mean of one variable is that of the moment core, in any arithmetic. -/
theorem mean_col {n w : Nat} {d : Option F} {i : Nat} (hi : i < n) (xs : List (List F)) (hl : ∀ x ∈ xs, x.length = n) :
    (gst A n w d xs).1.getD i (A.ofInt 0) = (mst A w d (column (A.ofInt 0) i xs)).1 := by
  induction xs using List.reverseRecOn with
  | nil => simp [gst_nil, column, FP.mst_nil, List.getD_eq_getElem?_getD, hi]
  | append_singleton xs x ih =>
    have hl' : ∀ y ∈ xs, y.length = n := fun y hy => hl y (by simp [hy])
    have hx := hl x (by simp)
    have hg := gst_length A (w := w) (d := d) xs hl'
    have hlen := roomG_length A (w := w) hl' hg
    have hr := room_col A (w := w) hl' hi hg (ih hl')
    have hcol : column (A.ofInt 0) i (xs ++ [x]) = column (A.ofInt 0) i xs ++ [x.getD i (A.ofInt 0)] := by simp [column]
    have hlast : (lastN w (column (A.ofInt 0) i (xs ++ [x]))).length = (lastN w (xs ++ [x])).length := by
      unfold column; rw [lastN_map, List.length_map]
    rw [hcol] at hlast ⊢
    cases d with
    | none =>
      rw [gst_add, FP.mst_add, hlast]
      dsimp only
      rw [getD_zipWith _ (by rw [hlen]; exact hi) (by simp [hlen, hx, hi]) (A.ofInt 0) (A.ofInt 0),
        getD_zipWith _ (by rw [hx]; exact hi) (by rw [hlen]; exact hi) (A.ofInt 0) (A.ofInt 0), hr]
    | some d =>
      rw [gst_decay, FP.mst_decay, hlast]
      dsimp only
      rw [getD_zipWith _ (by rw [hlen]; exact hi) (by simp [hlen, hx, hi]) (A.ofInt 0) (A.ofInt 0),
        getD_zipWith _ (by rw [hx]; exact hi) (by rw [hlen]; exact hi) (A.ofInt 0) (A.ofInt 0), hr]

/-! ### Tuples of order two -/

/-- The means alone need no condition on the tuples. -/
theorem track_means (n w : Nat) (d : Option F) (ts : List Tuple) :
    Track A n w d ts (fun xs m _ _ => m = (gst A n w d xs).1) (fun xs m _ _ => m = (roomG A n w xs (gst A n w d xs)).1) where
  zero := fun _ _ _ _ _ _ => rfl
  room := fun xs m s ns hr hI => by rw [roomG_room A hr]; exact hI
  evict1 := fun xs m s ns hw hx hI => by rw [roomG_one A hw hx]
  evict := fun xs y ys m s ns s' ns' hl hw hne _ _ _ _ hI _ => by rw [roomG_evict A hl hw hne, hI]
  add := fun hd xs x m s ns ns' _ _ _ _ hI _ => by subst hd; rw [gst_add, hI]
  decay := fun dd hd xs x m s ns ns' _ _ _ _ hI _ => by subst hd; rw [gst_decay, hI]

/-- The zero tuple comes first, the tuple itself last. -/
theorem visited_shape {n : Nat} {u : Tuple} (hu : TOK n u) (hp : 0 < u.sum) :
    ∃ z mid, visited false u = z :: (mid ++ [u]) ∧ Joint.abs z = 0 ∧ ∀ b ∈ mid, Under b u ∧ 0 < b.sum ∧ b.sum < u.sum := by
  have hord := Joint.visited_order false u
  have hnd := Joint.nodup_visited false u
  have hzu : Under (u.map fun _ => 0) u := by
    have := hu.nonneg
    clear hu hp hord hnd
    unfold Under
    induction u with
    | nil => exact .nil
    | cons x u ih => exact .cons ⟨le_rfl, this x List.mem_cons_self⟩ (ih fun k hk => this k (List.mem_cons_of_mem _ hk))
  have hleq : ∀ b, Under b u → Joint.Leq (u.map fun _ => 0) b := by
    intro b hb
    unfold Under at hb
    unfold Joint.Leq
    clear hu hp hord hnd hzu
    induction hb with
    | nil => exact .nil
    | cons h _ ih => exact .cons h.1 ih
  obtain ⟨l1, l2, hl⟩ := List.append_of_mem (mem_visited (reverse := false) |>.2 hzu)
  have hl1 : l1 = [] := by
    cases l1 with
    | nil => rfl
    | cons b l1 =>
      rw [hl] at hord
      have := (List.pairwise_append.1 hord).2.2 b List.mem_cons_self _ List.mem_cons_self
      simp only [Bool.false_eq_true, if_false] at this
      refine absurd (hleq b ?_) this
      rw [← mem_visited (reverse := false), hl]
      simp
  subst hl1
  rw [List.nil_append] at hl
  have hzs : ((u.map fun _ => 0) : Tuple).sum = 0 := by simp
  have hu2 : u ∈ l2 := by
    have := mem_visited (reverse := false) |>.2 (under_self hu)
    rw [hl] at this
    rcases List.mem_cons.1 this with h | h
    · rw [← h] at hzs; omega
    · exact h
  obtain ⟨l3, l4, hl2⟩ := List.append_of_mem hu2
  have hl4 : l4 = [] := by
    cases l4 with
    | nil => rfl
    | cons b l4 =>
      rw [hl, hl2] at hord
      have h1 := (List.pairwise_cons.1 hord).2
      have := (List.pairwise_cons.1 (List.pairwise_append.1 h1).2.1).1 b List.mem_cons_self
      simp only [Bool.false_eq_true, if_false] at this
      refine absurd (under_leq (b := u) ?_) this
      rw [← mem_visited (reverse := false), hl, hl2]
      simp
  subst hl4
  refine ⟨_, l3, by rw [hl, hl2], abs_zero (by simp), fun b hb => ?_⟩
  have hbu : Under b u := by
    rw [← mem_visited (reverse := false), hl, hl2]
    simp [hb]
  rw [hl, hl2] at hnd
  have hne : b ≠ u := by
    rintro rfl
    have := (List.nodup_cons.1 hnd).2
    exact (List.nodup_append.1 this).2.2 b hb b (by simp) rfl
  have hnz : b ≠ u.map fun _ => 0 := by
    rintro rfl
    exact (List.nodup_cons.1 hnd).1 (List.mem_append_left _ hb)
  have hb0 := sum_nonneg (hu.under hbu).nonneg
  have hle := under_sum_le hbu
  refine ⟨hbu, lt_of_le_of_ne hb0 fun h => hnz ?_, lt_of_le_of_ne hle fun h => hne (under_eq_of_sum hbu h)⟩
  have hz := all_zero_of_sum (hu.under hbu).nonneg h.symm
  have hlen := under_length hbu
  apply List.ext_getElem (by simp [hlen])
  intro k h1 h2
  rw [hz _ (List.getElem_mem h1)]
  simp

/-- The new sum of a tuple of order two, when those of order one are zero. -/
theorem newV_two {n : Nat} {r : Rule F} {δ : List F} {s s1 : F} {look : Tuple → F} {u : Tuple} (hu : TOK n u) (h2 : u.sum = 2)
    (hbase : A.add (A.ofInt 0) (r.base s) = s1) (hpart : ∀ m k dp, r.op s1 (r.part m k dp (A.ofInt 0)) = s1)
    (hlook : ∀ c, TOK n c → c.sum = 1 → look c = A.ofInt 0) :
    newV A r δ s look u = r.op s1 (r.full 2 (powLoop A (A.ofInt 1) δ u)) := by
  obtain ⟨z, mid, hv, hz, hmid⟩ := visited_shape hu (by omega)
  unfold newV
  rw [hv, List.foldl_cons, List.foldl_append]
  have e0 : termV A r δ s look u (A.ofInt 0) z = s1 := by
    unfold termV
    rw [if_pos hz, hbase]
  have e1 : mid.foldl (termV A r δ s look u) s1 = s1 := by
    clear hv
    induction mid with
    | nil => rfl
    | cons b mid ih =>
      obtain ⟨hb, hb1, hb2⟩ := hmid b List.mem_cons_self
      have : termV A r δ s look u s1 b = s1 := by
        have habs : Joint.abs b = b.sum := abs_of_small (hu.under hb) (by omega)
        obtain ⟨hs1, hs2, -⟩ := subV_under hb hu.le
        unfold termV
        rw [if_neg (by omega), if_neg (by simp only [eq, decide_eq_true_eq]; rintro rfl; omega), hlook _ (hu.under hs1) (by omega), hpart]
      rw [List.foldl_cons, this]
      exact ih fun b hb => hmid b (List.mem_cons_of_mem _ hb)
  have hau : Joint.abs u = 2 := by rw [abs_of_small hu (by omega), h2]
  rw [e0, e1]
  simp only [List.foldl_cons, List.foldl_nil, termV]
  rw [if_neg (by omega), if_pos (by simp [eq]), hau]
  rfl

/-! ### Rounded arithmetic -/

section rounded
variable {rnd : ℚ → ℚ} {pw : ℚ → Nat → ℚ}

/-- What is used of `math.Pow`: the exponents 0 and 1 are special cases there, and results are representable. -/
structure PowOK (rnd : ℚ → ℚ) (pw : ℚ → Nat → ℚ) : Prop where
  zero : ∀ x, pw x 0 = 1
  one : ∀ x, rnd x = x → pw x 1 = x
  repr : ∀ x k, rnd x = x → rnd (pw x k) = pw x k

/-- Sums of order at most one are zero, always. -/
theorem gst_zero (R : Rounding rnd) (P : PowOK rnd pw) {n w : Nat} {d : Option ℚ} (hd : ∀ dd, d = some dd → rnd dd = dd) (xs : List (List ℚ)) {a : Tuple} (ha : TOK n a)
    (h1 : a.sum ≤ 1) : (gst (Arith.rounded rnd pw) n w d xs).2 a = 0 ∧
      (roomG (Arith.rounded rnd pw) n w xs (gst (Arith.rounded rnd pw) n w d xs)).2 a = 0 := by
  have h0 : (Arith.rounded rnd pw).ofInt 0 = 0 := by simp [Arith.rounded, R.zero]
  have hn1 : rnd (-1) = -1 := by rw [R.neg, R.one]
  have hroom : ∀ (pts : List (List ℚ)) (p : List ℚ × (Tuple → ℚ)), p.2 a = 0 → (roomG (Arith.rounded rnd pw) n w pts p).2 a = 0 := by
    intro pts p hp
    unfold roomG
    by_cases hc : w ≠ 0 ∧ (lastN w pts).length = w
    · rw [if_pos hc]
      match lastN w pts with
      | [] => exact h0
      | [_] => exact h0
      | y :: z :: ys =>
        dsimp only
        rw [remS_eq _ _ _ _ ha, hp]
        have := newV_zero _ (zrule_remove (rnd := rnd) (pw := pw) R.zero hn1 P.zero ((Arith.rounded rnd pw).ofInt (z :: ys).length))
          (δ := List.zipWith (fun x m => (Arith.rounded rnd pw).sub x m) y (List.zipWith (fun x m => (Arith.rounded rnd pw).sub m ((Arith.rounded rnd pw).div ((Arith.rounded rnd pw).sub x m) ((Arith.rounded rnd pw).ofInt (z :: ys).length))) y p.1))
          (look := fun c => remS (Arith.rounded rnd pw) (removeRule (Arith.rounded rnd pw) ((Arith.rounded rnd pw).ofInt (z :: ys).length)) (List.zipWith (fun x m => (Arith.rounded rnd pw).sub x m) y (List.zipWith (fun x m => (Arith.rounded rnd pw).sub m ((Arith.rounded rnd pw).div ((Arith.rounded rnd pw).sub x m) ((Arith.rounded rnd pw).ofInt (z :: ys).length))) y p.1)) p.2 c.sum.toNat c) ha h1
        rw [h0] at this
        exact this
    · rw [if_neg hc]; exact hp
  have hg : (gst (Arith.rounded rnd pw) n w d xs).2 a = 0 := by
    induction xs using List.reverseRecOn with
    | nil => exact h0
    | append_singleton xs x ih =>
      have hp := hroom xs _ ih
      cases d with
      | none =>
        rw [gst_add]
        dsimp only
        rw [hp]
        have := newV_zero _ (zrule_add (rnd := rnd) (pw := pw) R.zero hn1 P.zero ((Arith.rounded rnd pw).ofInt (lastN w (xs ++ [x])).length))
          (δ := List.zipWith (fun x m => (Arith.rounded rnd pw).sub x m) x (roomG (Arith.rounded rnd pw) n w xs (gst (Arith.rounded rnd pw) n w none xs)).1)
          (look := (roomG (Arith.rounded rnd pw) n w xs (gst (Arith.rounded rnd pw) n w none xs)).2) ha h1
        rw [h0] at this
        exact this
      | some dd =>
        rw [gst_decay]
        dsimp only
        rw [hp]
        have := newV_zero _ (zrule_decay (rnd := rnd) (pw := pw) R.zero R.neg R.idem P.one (d := if (lastN w (xs ++ [x])).length = 1 then (Arith.rounded rnd pw).ofInt 1 else dd)
          (by by_cases h : (lastN w (xs ++ [x])).length = 1 <;> simp only [h, if_true, if_false]; exacts [R.idem _, hd dd rfl]))
          (δ := List.zipWith (fun x m => (Arith.rounded rnd pw).sub x m) x (roomG (Arith.rounded rnd pw) n w xs (gst (Arith.rounded rnd pw) n w (some dd) xs)).1)
          (look := (roomG (Arith.rounded rnd pw) n w xs (gst (Arith.rounded rnd pw) n w (some dd) xs)).2) ha h1
        rw [h0] at this
        exact this
  exact ⟨hg, hroom xs _ hg⟩

/-- How a new value enters a sum. -/
def newRule (A : Arith F) (d : Option F) (cnt : Nat) : Rule F :=
  match d with
  | none => addRule A (A.ofInt cnt)
  | some dd => decayRule A (if cnt = 1 then A.ofInt 1 else dd)

/-- How room is made in a sum of products of two deviations: `f` is the product, `m1`, `m2` are the means that remain. -/
def roomP (A : Arith F) (f : F → F → F) (w : Nat) (ps : List (F × F)) (m1 m2 s : F) : F :=
  if w ≠ 0 ∧ (lastN w ps).length = w then
    match lastN w ps with
    | [] => A.ofInt 0
    | [_] => A.ofInt 0
    | y :: ys => A.sub s ((removeRule A (A.ofInt ys.length)).full 2 (f (A.sub y.1 m1) (A.sub y.2 m2)))
  else s

/-- The mean of a column after making room. -/
def roomMean (A : Arith F) (w : Nat) (d : Option F) (xs : List F) : F := (roomM A w xs (mst A w d xs)).1

/-- The sum of products of two deviations as a function of the pairs, last pair first. -/
def pairR (A : Arith F) (f : F → F → F) (w : Nat) (d : Option F) : List (F × F) → F
  | [] => A.ofInt 0
  | p :: r =>
    let ps := r.reverse
    let m1 := roomMean A w d (ps.map (·.1))
    let m2 := roomMean A w d (ps.map (·.2))
    let rl := newRule A d (lastN w (ps ++ [p])).length
    rl.op (rl.base (roomP A f w ps m1 m2 (pairR A f w d r))) (rl.full 2 (f (A.sub p.1 m1) (A.sub p.2 m2)))

def pairS (A : Arith F) (f : F → F → F) (w : Nat) (d : Option F) (ps : List (F × F)) : F := pairR A f w d ps.reverse

theorem pairS_nil (A : Arith F) (f : F → F → F) (w : Nat) (d : Option F) : pairS A f w d [] = A.ofInt 0 := rfl

theorem pairS_append (A : Arith F) (f : F → F → F) (w : Nat) (d : Option F) (ps : List (F × F)) (p : F × F) :
    pairS A f w d (ps ++ [p]) = (newRule A d (lastN w (ps ++ [p])).length).op
      ((newRule A d (lastN w (ps ++ [p])).length).base
        (roomP A f w ps (roomMean A w d (ps.map (·.1))) (roomMean A w d (ps.map (·.2))) (pairS A f w d ps)))
      ((newRule A d (lastN w (ps ++ [p])).length).full 2
        (f (A.sub p.1 (roomMean A w d (ps.map (·.1)))) (A.sub p.2 (roomMean A w d (ps.map (·.2)))))) := by
  unfold pairS
  rw [List.reverse_append]
  simp [pairR]

/-- The pairs of values of two variables. -/
def pairs (z : F) (i j : Nat) (xs : List (List F)) : List (F × F) := xs.map fun x => (x.getD i z, x.getD j z)

theorem pairs_fst (z : F) (i j : Nat) (xs : List (List F)) : (pairs z i j xs).map (·.1) = column z i xs := by simp [pairs, column]
theorem pairs_snd (z : F) (i j : Nat) (xs : List (List F)) : (pairs z i j xs).map (·.2) = column z j xs := by simp [pairs, column]

theorem pairS_repr (R : Rounding rnd) (f : ℚ → ℚ → ℚ) (w : Nat) (d : Option ℚ) (ps : List (ℚ × ℚ)) :
    rnd (pairS (Arith.rounded rnd pw) f w d ps) = pairS (Arith.rounded rnd pw) f w d ps ∧
    ∀ m1 m2, rnd (roomP (Arith.rounded rnd pw) f w ps m1 m2 (pairS (Arith.rounded rnd pw) f w d ps)) =
      roomP (Arith.rounded rnd pw) f w ps m1 m2 (pairS (Arith.rounded rnd pw) f w d ps) := by
  have h : rnd (pairS (Arith.rounded rnd pw) f w d ps) = pairS (Arith.rounded rnd pw) f w d ps := by
    induction ps using List.reverseRecOn with
    | nil => simp [pairS_nil, Arith.rounded, R.zero]
    | append_singleton ps p _ =>
      rw [pairS_append]
      cases d with
      | none => exact R.idem _
      | some d => exact R.idem _
  refine ⟨h, fun m1 m2 => ?_⟩
  unfold roomP
  by_cases hc : w ≠ 0 ∧ (lastN w ps).length = w
  · rw [if_pos hc]
    match lastN w ps with
    | [] => simp [Arith.rounded, R.zero]
    | [_] => simp [Arith.rounded, R.zero]
    | y :: z :: ys => exact R.idem _
  · rw [if_neg hc]; exact h

/-- For a tuple of order two that multiplies the deviations of two variables by `f`, the sum is a function of their values alone. -/
theorem sum_col (R : Rounding rnd) (P : PowOK rnd pw) {n w : Nat} {d : Option ℚ} (hd : ∀ dd, d = some dd → rnd dd = dd) {u : Tuple} (hu : TOK n u) (h2 : u.sum = 2) {i j : Nat}
    (hi : i < n) (hj : j < n) {f : ℚ → ℚ → ℚ}
    (hdp : ∀ δ : List ℚ, δ.length = n → (∀ v ∈ δ, rnd v = v) → powLoop (Arith.rounded rnd pw) 1 δ u = f (δ.getD i 0) (δ.getD j 0))
    (xs : List (List ℚ)) (hl : ∀ x ∈ xs, x.length = n) :
    (gst (Arith.rounded rnd pw) n w d xs).2 u = pairS (Arith.rounded rnd pw) f w d (pairs 0 i j xs) := by
  have hrepr := pairS_repr (pw := pw) R f w d
  set A := Arith.rounded rnd pw with hA
  have h0 : A.ofInt 0 = 0 := by simp [hA, Arith.rounded, R.zero]
  have h1 : A.ofInt 1 = 1 := by simp [hA, Arith.rounded, R.one]
  have hδrep : ∀ (x m : List ℚ), ∀ v ∈ List.zipWith (fun x m => A.sub x m) x m, rnd v = v := by
    intro x m v hv
    rw [List.mem_iff_getElem] at hv
    obtain ⟨k, hk, rfl⟩ := hv
    rw [List.getElem_zipWith]
    exact R.idem _
  have hroomean : ∀ (xs : List (List ℚ)) (k : Nat), k < n → (∀ x ∈ xs, x.length = n) →
      (roomG A n w xs (gst A n w d xs)).1.getD k 0 = roomMean A w d (column 0 k xs) := by
    intro xs k hk hl
    have := room_col A (w := w) hl hk (gst_length A (w := w) (d := d) xs hl) (q := mst A w d (column 0 k xs))
      (by have := mean_col A (w := w) (d := d) hk xs hl; rw [h0] at this ⊢; exact this)
    rw [h0] at this
    exact this
  have hroom : ∀ (xs : List (List ℚ)), (∀ x ∈ xs, x.length = n) →
      (gst A n w d xs).2 u = pairS A f w d (pairs 0 i j xs) →
      (roomG A n w xs (gst A n w d xs)).2 u =
        roomP A f w (pairs 0 i j xs) (roomMean A w d (column 0 i xs)) (roomMean A w d (column 0 j xs)) (pairS A f w d (pairs 0 i j xs)) := by
    intro xs hl e1
    have hmi := hroomean xs i hi hl
    have hmj := hroomean xs j hj hl
    have hgl := gst_length A (w := w) (d := d) xs hl
    have hz := fun a ha h => (gst_zero R P hd (n := n) (w := w) (d := d) xs (a := a) ha h).2
    have e2 := (hrepr (pairs 0 i j xs)).1
    rw [← hA] at hz
    have hlm : lastN w (pairs 0 i j xs) = (lastN w xs).map fun x => (x.getD i 0, x.getD j 0) := lastN_map _ _ _
    have hmemb : ∀ y ∈ lastN w xs, y.length = n := by
      intro y hy
      refine hl y ?_
      unfold lastN at hy
      by_cases hw : w = 0
      · rwa [if_pos hw] at hy
      · rw [if_neg hw] at hy; exact List.mem_of_mem_drop hy
    unfold roomP
    unfold roomG at *
    rw [hlm, List.length_map]
    by_cases hc : w ≠ 0 ∧ (lastN w xs).length = w
    · rw [if_pos hc] at hz hmi hmj
      rw [if_pos hc, if_pos hc]
      match hm : lastN w xs with
      | [] => simp
      | [_] => simp
      | y :: z :: ys =>
        rw [hm] at hz hmemb hmi hmj
        have hyl := hmemb y List.mem_cons_self
        dsimp only at hz hmi hmj ⊢
        rw [remS_eq _ _ _ _ hu, e1]
        simp only [List.map_cons]
        have hδi : ∀ k, k < n → (List.zipWith (fun x m => A.sub x m) y (List.zipWith (fun x m => A.sub m (A.div (A.sub x m) (A.ofInt (z :: ys).length))) y (gst A n w d xs).1)).getD k 0 =
            A.sub (y.getD k 0) ((List.zipWith (fun x m => A.sub m (A.div (A.sub x m) (A.ofInt (z :: ys).length))) y (gst A n w d xs).1).getD k 0) := by
          intro k hk
          rw [getD_zipWith _ (by omega) (by simp; omega) 0 0]
        rw [newV_two A (s1 := pairS A f w d (pairs 0 i j xs)) hu h2]
        · rw [h1, hdp _ (by simp [hyl, hgl]) (hδrep _ _), hδi i hi, hδi j hj, hmi, hmj]
          simp [removeRule]
        · simp only [removeRule, h0]
          simp only [hA, Arith.rounded, zero_add]
          exact e2
        · intro m k dp
          simp only [removeRule, h0]
          simp only [hA, Arith.rounded, mul_zero, R.zero, sub_zero]
          exact e2
        · intro c hc1 hc2
          rw [h0]
          exact hz c hc1 (by omega)
    · rw [if_neg hc, if_neg hc]; exact e1
  induction xs using List.reverseRecOn with
  | nil => rfl
  | append_singleton xs x ih =>
    have hl' : ∀ y ∈ xs, y.length = n := fun y hy => hl y (by simp [hy])
    have hx := hl x (by simp)
    have r1 := hroom xs hl' (ih hl')
    have r2 := (hrepr (pairs 0 i j xs)).2 (roomMean A w d (column 0 i xs)) (roomMean A w d (column 0 j xs))
    have hmi := hroomean xs i hi hl'
    have hmj := hroomean xs j hj hl'
    have hlen := roomG_length A (w := w) hl' (gst_length A (w := w) (d := d) xs hl')
    have hz := fun a ha h => (gst_zero R P hd (n := n) (w := w) (d := d) xs (a := a) ha h).2
    rw [← hA] at hz
    have hci : pairs 0 i j (xs ++ [x]) = pairs 0 i j xs ++ [(x.getD i 0, x.getD j 0)] := by simp [pairs]
    have hlast : (lastN w (pairs 0 i j xs ++ [(x.getD i 0, x.getD j 0)])).length = (lastN w (xs ++ [x])).length := by
      rw [← hci]; unfold pairs; rw [lastN_map, List.length_map]
    have hδ : ∀ k, k < n → (List.zipWith (fun x m => A.sub x m) x (roomG A n w xs (gst A n w d xs)).1).getD k 0 =
        A.sub (x.getD k 0) ((roomG A n w xs (gst A n w d xs)).1.getD k 0) := by
      intro k hk
      rw [getD_zipWith _ (by omega) (by omega) 0 0]
    rw [hci, pairS_append, hlast, pairs_fst, pairs_snd]
    have hpw : powLoop A (A.ofInt 1) (List.zipWith (fun x m => A.sub x m) x (roomG A n w xs (gst A n w d xs)).1) u =
        f (A.sub (x.getD i 0) (roomMean A w d (column 0 i xs))) (A.sub (x.getD j 0) (roomMean A w d (column 0 j xs))) := by
      rw [h1, hdp _ (by simp [hx, hlen]) (hδrep _ _), hδ i hi, hδ j hj, hmi, hmj]
    cases d with
    | none =>
      rw [gst_add]
      dsimp only
      rw [r1, newV_two A (s1 := roomP A f w (pairs 0 i j xs) (roomMean A w none (column 0 i xs)) (roomMean A w none (column 0 j xs))
        (pairS A f w none (pairs 0 i j xs))) hu h2, hpw]
      · rfl
      · simp only [addRule, h0]
        simp only [hA, Arith.rounded, zero_add]
        exact r2
      · intro m k dp
        simp only [addRule, h0]
        simp only [hA, Arith.rounded, mul_zero, R.zero, add_zero]
        exact r2
      · intro c hc1 hc2
        rw [h0]
        exact hz c hc1 (by omega)
    | some dd =>
      rw [gst_decay]
      dsimp only
      rw [r1, newV_two A (s1 := A.mul (A.sub (A.ofInt 1) (if (lastN w (xs ++ [x])).length = 1 then A.ofInt 1 else dd))
        (roomP A f w (pairs 0 i j xs) (roomMean A w (some dd) (column 0 i xs)) (roomMean A w (some dd) (column 0 j xs))
          (pairS A f w (some dd) (pairs 0 i j xs)))) hu h2, hpw]
      · rfl
      · simp only [decayRule, h0]
        simp only [hA, Arith.rounded, zero_add]
        exact R.idem _
      · intro m k dp
        simp only [decayRule, h0]
        simp only [hA, Arith.rounded, mul_zero, R.zero, add_zero]
        exact R.idem _
      · intro c hc1 hc2
        rw [h0]
        exact hz c hc1 (by omega)

/-- Of two equal variables, or twice the same: the second power sum of the moment core. -/
theorem pairS_mst (R : Rounding rnd) {f : ℚ → ℚ → ℚ} (hf : ∀ x, rnd x = x → f x x = pw x 2) (w : Nat) (d : Option ℚ) (xs : List ℚ) :
    pairS (Arith.rounded rnd pw) f w d (xs.map fun x => (x, x)) = (mst (Arith.rounded rnd pw) w d xs).2 2 := by
  set A := Arith.rounded rnd pw with hA
  have hsub : ∀ x y, f (A.sub x y) (A.sub x y) = pw (A.sub x y) 2 := fun x y => hf _ (R.idem _)
  have hroom : ∀ (xs : List ℚ) (s : ℚ), s = (mst A w d xs).2 2 →
      roomP A f w (xs.map fun x => (x, x)) (roomMean A w d xs) (roomMean A w d xs) s = (roomM A w xs (mst A w d xs)).2 2 := by
    rintro xs s rfl
    unfold roomP roomMean
    unfold roomM
    rw [lastN_map, List.length_map]
    by_cases hc : w ≠ 0 ∧ (lastN w xs).length = w
    · rw [if_pos hc, if_pos hc]
      match lastN w xs with
      | [] => rfl
      | [_] => rfl
      | y :: z :: ys =>
        simp only [List.map_cons]
        rw [FP.remM_eq, if_pos le_rfl, hsub]
        simp [removeRule, FP.removeV, FP.foldV, hA, Arith.rounded]
    · rw [if_neg hc, if_neg hc]
  induction xs using List.reverseRecOn with
  | nil => rfl
  | append_singleton xs x ih =>
    have e1 : (xs.map fun x => (x, x)).map (·.1) = xs := by simp [Function.comp_def]
    have e2 : (xs.map fun x => (x, x)).map (·.2) = xs := by simp [Function.comp_def]
    have el : (lastN w ((xs.map fun x => (x, x)) ++ [(x, x)])).length = (lastN w (xs ++ [x])).length := by
      have : (xs.map fun x => (x, x)) ++ [(x, x)] = (xs ++ [x]).map fun x => (x, x) := by simp
      rw [this, lastN_map, List.length_map]
    rw [List.map_append, List.map_cons, List.map_nil, pairS_append, e1, e2, el, hroom xs _ ih, hsub]
    cases d with
    | none =>
      rw [FP.mst_add]
      dsimp only
      rw [if_pos le_rfl]
      simp [newRule, addRule, FP.addV, FP.foldV, hA, Arith.rounded, roomMean]
    | some dd =>
      rw [FP.mst_decay]
      dsimp only
      rw [if_pos le_rfl]
      simp [newRule, decayRule, FP.decayV, FP.foldV, hA, Arith.rounded, roomMean]

/-- A symmetric product gives a symmetric sum. -/
theorem pairS_swap (A : Arith F) {f : F → F → F} (hf : ∀ x y, f x y = f y x) (w : Nat) (d : Option F) (ps : List (F × F)) :
    pairS A f w d (ps.map Prod.swap) = pairS A f w d ps := by
  have hroom : ∀ (ps : List (F × F)) (m1 m2 s : F), roomP A f w (ps.map Prod.swap) m2 m1 s = roomP A f w ps m1 m2 s := by
    intro ps m1 m2 s
    unfold roomP
    rw [lastN_map, List.length_map]
    by_cases hc : w ≠ 0 ∧ (lastN w ps).length = w
    · rw [if_pos hc, if_pos hc]
      match lastN w ps with
      | [] => rfl
      | [_] => rfl
      | y :: z :: ys => simp [hf (A.sub y.2 m2)]
    · rw [if_neg hc, if_neg hc]
  induction ps using List.reverseRecOn with
  | nil => rfl
  | append_singleton ps p ih =>
    have e1 : (ps.map Prod.swap).map (·.1) = ps.map (·.2) := by simp
    have e2 : (ps.map Prod.swap).map (·.2) = ps.map (·.1) := by simp
    have el : (lastN w (ps.map Prod.swap ++ [p.swap])).length = (lastN w (ps ++ [p])).length := by
      have : ps.map Prod.swap ++ [p.swap] = (ps ++ [p]).map Prod.swap := by simp
      rw [this, lastN_map, List.length_map]
    rw [List.map_append, List.map_cons, List.map_nil, pairS_append, pairS_append, e1, e2, el, ih, hroom, hf (A.sub p.swap.1 _)]
    rfl

/-! ### The product of powers of the deviations -/

/-- The tuple with `k` at index `i` and zeros elsewhere. -/
def atTuple (n i : Nat) (k : Int) : Tuple := (List.replicate n 0).set i k

/-- The tuple with 1 at the indices `i` and `j`. -/
def pairTuple (n i j : Nat) : Tuple := (atTuple n i 1).set j 1

theorem powLoop_zero (P : PowOK rnd pw) {r : ℚ} (hr : rnd r = r) (xs : List ℚ) (t : Tuple) (ht : ∀ k ∈ t, k = 0) :
    powLoop (Arith.rounded rnd pw) r xs t = r := by
  induction t generalizing xs with
  | nil => cases xs <;> rfl
  | cons k t ih =>
    cases xs with
    | nil => rfl
    | cons x xs =>
      have h0 := ht k List.mem_cons_self
      subst h0
      simp only [powLoop, Arith.rounded, Int.toNat_zero, P.zero, mul_one, hr]
      exact ih xs fun k hk => ht k (List.mem_cons_of_mem _ hk)

theorem powLoop_at (R : Rounding rnd) (P : PowOK rnd pw) {k : Nat} {r : ℚ} (hr : rnd r = r) {n i : Nat} (hi : i < n) (xs : List ℚ)
    (hx : xs.length = n) : powLoop (Arith.rounded rnd pw) r xs (atTuple n i k) = rnd (r * pw (xs.getD i 0) k) := by
  induction n generalizing i xs with
  | zero => omega
  | succ n ih =>
    cases xs with
    | nil => simp at hx
    | cons x xs =>
      cases i with
      | zero =>
        simp only [atTuple, List.replicate_succ, List.set_cons_zero, powLoop, Int.toNat_natCast, List.getD_cons_zero]
        exact powLoop_zero P (R.idem _) xs _ fun k hk => (List.mem_replicate.1 hk).2
      | succ i =>
        simp only [atTuple, List.replicate_succ, List.set_cons_succ, powLoop, Int.toNat_zero, List.getD_cons_succ]
        have : (Arith.rounded rnd pw).mul r ((Arith.rounded rnd pw).pow x 0) = r := by simp [Arith.rounded, P.zero, hr]
        rw [this]
        exact ih (by omega) xs (by simpa using hx)

theorem powLoop_pair (R : Rounding rnd) (P : PowOK rnd pw) {n i j : Nat} (hij : i < j) (hj : j < n) (xs : List ℚ) (hx : xs.length = n)
    (hxr : ∀ v ∈ xs, rnd v = v) :
    powLoop (Arith.rounded rnd pw) 1 xs (pairTuple n i j) = rnd (xs.getD i 0 * xs.getD j 0) := by
  induction n generalizing i j xs with
  | zero => omega
  | succ n ih =>
    cases xs with
    | nil => simp at hx
    | cons x xs =>
      cases j with
      | zero => omega
      | succ j =>
        cases i with
        | zero =>
          simp only [pairTuple, atTuple, List.replicate_succ, List.set_cons_zero, List.set_cons_succ, powLoop, List.getD_cons_zero, List.getD_cons_succ]
          have hxx := hxr x List.mem_cons_self
          have h1 : (Arith.rounded rnd pw).mul 1 ((Arith.rounded rnd pw).pow x (Int.toNat 1)) = x := by
            simp [Arith.rounded, P.one x hxx, hxx]
          rw [h1]
          have := powLoop_at R P (k := 1) hxx (i := j) (n := n) (by omega) xs (by simpa using hx)
          rw [P.one _ ?_] at this
          · exact this
          · refine hxr _ (List.mem_cons_of_mem _ ?_)
            rw [List.getD_eq_getElem?_getD, List.getElem?_eq_getElem (by simp at hx; omega)]
            exact List.getElem_mem _
        | succ i =>
          simp only [pairTuple, atTuple, List.replicate_succ, List.set_cons_succ, powLoop, List.getD_cons_succ]
          have h1 : (Arith.rounded rnd pw).mul 1 ((Arith.rounded rnd pw).pow x (Int.toNat 0)) = 1 := by
            simp [Arith.rounded, P.zero, R.one]
          rw [h1]
          exact ih (by omega) (by omega) xs (by simpa using hx) fun v hv => hxr v (List.mem_cons_of_mem _ hv)

theorem atTuple_tok {n i k : Nat} (hk : k ≤ 65) : TOK n (atTuple n i k) := by
  refine ⟨by simp [atTuple], fun j hj => ?_⟩
  rcases List.mem_or_eq_of_mem_set hj with h | h
  · rw [(List.mem_replicate.1 h).2]; omega
  · omega

theorem sum_set {l : List Int} {i : Nat} {k : Int} (hi : i < l.length) (h0 : l.getD i 0 = 0) : (l.set i k).sum = l.sum + k := by
  induction l generalizing i with
  | nil => simp at hi
  | cons x l ih =>
    cases i with
    | zero =>
      simp at h0
      simp [h0, add_comm]
    | succ i =>
      simp only [List.set_cons_succ, List.sum_cons]
      rw [ih (by simpa using hi) (by simpa using h0)]
      ring

theorem atTuple_sum {n i : Nat} {k : Int} (hi : i < n) : (atTuple n i k).sum = k := by
  unfold atTuple
  rw [sum_set (by simpa using hi) (by simp [hi])]
  simp

theorem pairTuple_tok {n i j : Nat} : TOK n (pairTuple n i j) := by
  refine ⟨by simp [pairTuple, atTuple], fun k hk => ?_⟩
  rcases List.mem_or_eq_of_mem_set hk with h | h
  · exact (atTuple_tok (n := n) (i := i) (k := 1) (by omega)).2 k h
  · omega

theorem pairTuple_sum {n i j : Nat} (hij : i < j) (hj : j < n) : (pairTuple n i j).sum = 2 := by
  unfold pairTuple
  rw [sum_set (by simp [atTuple, hj]), atTuple_sum (by omega)]
  · rfl
  · unfold atTuple
    rw [List.getD_eq_getElem?_getD, List.getElem?_set_ne (by omega)]
    simp [hj]

/-- The sum of squared deviations of a variable is that of the moment core for its column. -/
theorem sum_sq (R : Rounding rnd) (P : PowOK rnd pw) {n w : Nat} {d : Option ℚ} (hd : ∀ dd, d = some dd → rnd dd = dd) {i : Nat} (hi : i < n) (xs : List (List ℚ))
    (hl : ∀ x ∈ xs, x.length = n) :
    (gst (Arith.rounded rnd pw) n w d xs).2 (atTuple n i 2) = (mst (Arith.rounded rnd pw) w d (column 0 i xs)).2 2 := by
  rw [sum_col R P hd (u := atTuple n i 2) (atTuple_tok (k := 2) (by omega)) (atTuple_sum hi) hi hi (f := fun a _ => pw a 2) (fun δ hδ hr => ?_) xs hl]
  · rw [← pairS_mst R (f := fun a _ => pw a 2) (fun _ _ => rfl)]
    simp [pairs, column, Function.comp_def]
  · have := powLoop_at R P (k := 2) R.one hi δ hδ
    rw [one_mul] at this
    refine this.trans (P.repr _ _ (hr _ ?_))
    rw [List.getD_eq_getElem?_getD, List.getElem?_eq_getElem (by omega)]
    exact List.getElem_mem _

/-- The mixed sum of two variables is a function of their values. -/
theorem sum_mixed (R : Rounding rnd) (P : PowOK rnd pw) {n w : Nat} {d : Option ℚ} (hd : ∀ dd, d = some dd → rnd dd = dd) {i j : Nat} (hij : i < j) (hj : j < n) (xs : List (List ℚ))
    (hl : ∀ x ∈ xs, x.length = n) :
    (gst (Arith.rounded rnd pw) n w d xs).2 (pairTuple n i j) = pairS (Arith.rounded rnd pw) (fun a b => rnd (a * b)) w d (pairs 0 i j xs) :=
  sum_col R P hd pairTuple_tok (pairTuple_sum hij hj) (by omega) hj (fun δ hδ hr => powLoop_pair R P hij hj δ hδ hr) xs hl

/-- The mixed sum of two equal columns is the sum of squares. -/
theorem sum_pair (R : Rounding rnd) (P : PowOK rnd pw) (hsq : ∀ x, rnd x = x → pw x 2 = rnd (x * x)) {n w : Nat} {d : Option ℚ} (hd : ∀ dd, d = some dd → rnd dd = dd) {i j : Nat}
    (hij : i < j) (hj : j < n) (xs : List (List ℚ)) (hl : ∀ x ∈ xs, x.length = n) (hcol : column 0 i xs = column 0 j xs) :
    (gst (Arith.rounded rnd pw) n w d xs).2 (pairTuple n i j) = (mst (Arith.rounded rnd pw) w d (column 0 i xs)).2 2 := by
  rw [sum_mixed R P hd hij hj xs hl, ← pairS_mst R (f := fun a b => rnd (a * b)) (fun x hx => (hsq x hx).symm)]
  congr 1
  have : ∀ x ∈ xs, x.getD i 0 = x.getD j 0 := by
    unfold column at hcol
    exact List.map_inj_left.1 hcol
  unfold pairs column
  rw [List.map_map]
  refine List.map_congr_left fun x hx => ?_
  rw [Function.comp_apply, this x hx]

end rounded

end Verif.JFP
