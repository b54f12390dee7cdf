import Verif.Proofs.JointFPVal

/-! # The joint core as a function of the points

`gst` computes the means and the sums of all tuples from the points alone, without the configured tuples and the maps. A core holds these
numbers for the tuples it tracks. -/

namespace Verif.JFP
open Verif.Spec Verif.MathUtil
open Verif.FP (Arith)
open Verif.Joint (Tuple Map Core Config forEach iter sub eq Under Leq visited visited_order nodup_visited iter_eq mem_visited KeyInv keyOf)

variable {F : Type} (A : Arith F)

/-- The sums after a removal, to depth `k`. -/
def remS (r : Rule F) (δ : List F) (S : Tuple → F) : Nat → Tuple → F
  | 0, a => newV A r δ (S a) (fun _ => A.ofInt 0) a
  | k + 1, a => newV A r δ (S a) (remS r δ S k) a

/-- Make room in the window: `pts` are the points so far. -/
def roomG (n w : Nat) (pts : List (List F)) (p : List F × (Tuple → F)) : List F × (Tuple → F) :=
  if w ≠ 0 ∧ (lastN w pts).length = w then
    match lastN w pts with
    | y :: z :: ys =>
      let m := List.zipWith (fun x m => A.sub m (A.div (A.sub x m) (A.ofInt (z :: ys).length))) y p.1
      (m, fun a => remS A (removeRule A (A.ofInt (z :: ys).length)) (List.zipWith (fun x m => A.sub x m) y m) p.2 a.sum.toNat a)
    | _ => (List.replicate n (A.ofInt 0), fun _ => A.ofInt 0)
  else p

/-- Means and sums after the points, newest first. -/
def gstR (n w : Nat) (d : Option F) : List (List F) → List F × (Tuple → F)
  | [] => (List.replicate n (A.ofInt 0), fun _ => A.ofInt 0)
  | x :: r =>
    let p := roomG A n w r.reverse (gstR n w d r)
    let k := (lastN w (r.reverse ++ [x])).length
    let δ := List.zipWith (fun x m => A.sub x m) x p.1
    match d with
    | none => (List.zipWith (fun m e => A.add m (A.div e (A.ofInt k))) p.1 δ, fun a => newV A (addRule A (A.ofInt k)) δ (p.2 a) p.2 a)
    | some dd =>
      let d' := if k = 1 then A.ofInt 1 else dd
      (List.zipWith (fun m e => A.add m (A.mul d' e)) p.1 δ, fun a => newV A (decayRule A d') δ (p.2 a) p.2 a)

/-- Means and sums after the points `xs`. -/
def gst (n w : Nat) (d : Option F) (xs : List (List F)) : List F × (Tuple → F) := gstR A n w d xs.reverse

theorem gst_nil (n w : Nat) (d : Option F) : gst A n w d [] = (List.replicate n (A.ofInt 0), fun _ => A.ofInt 0) := rfl

theorem gst_add (n w : Nat) (xs : List (List F)) (x : List F) :
    gst A n w none (xs ++ [x]) =
      (List.zipWith (fun m e => A.add m (A.div e (A.ofInt (lastN w (xs ++ [x])).length))) (roomG A n w xs (gst A n w none xs)).1
          (List.zipWith (fun x m => A.sub x m) x (roomG A n w xs (gst A n w none xs)).1),
        fun a => newV A (addRule A (A.ofInt (lastN w (xs ++ [x])).length))
          (List.zipWith (fun x m => A.sub x m) x (roomG A n w xs (gst A n w none xs)).1) ((roomG A n w xs (gst A n w none xs)).2 a)
          (roomG A n w xs (gst A n w none xs)).2 a) := by
  unfold gst
  rw [List.reverse_append]
  simp [gstR]

theorem gst_decay (n w : Nat) (d : F) (xs : List (List F)) (x : List F) :
    gst A n w (some d) (xs ++ [x]) =
      (List.zipWith (fun m e => A.add m (A.mul (if (lastN w (xs ++ [x])).length = 1 then A.ofInt 1 else d) e))
          (roomG A n w xs (gst A n w (some d) xs)).1
          (List.zipWith (fun x m => A.sub x m) x (roomG A n w xs (gst A n w (some d) xs)).1),
        fun a => newV A (decayRule A (if (lastN w (xs ++ [x])).length = 1 then A.ofInt 1 else d))
          (List.zipWith (fun x m => A.sub x m) x (roomG A n w xs (gst A n w (some d) xs)).1) ((roomG A n w xs (gst A n w (some d) xs)).2 a)
          (roomG A n w xs (gst A n w (some d) xs)).2 a) := by
  unfold gst
  rw [List.reverse_append]
  simp [gstR]

theorem roomG_room {n w : Nat} {pts : List (List F)} {p : List F × (Tuple → F)} (h : w = 0 ∨ (lastN w pts).length < w) :
    roomG A n w pts p = p := by
  unfold roomG
  rw [if_neg (by omega)]

theorem roomG_one {n w : Nat} {pts : List (List F)} {p : List F × (Tuple → F)} (hw : w = 1) (hp : pts ≠ []) :
    roomG A n w pts p = (List.replicate n (A.ofInt 0), fun _ => A.ofInt 0) := by
  subst hw
  have h1 := lastN_length 1 pts
  have h2 := List.length_pos_iff.2 hp
  unfold roomG
  rw [if_pos ⟨by omega, by rw [h1]; simp; omega⟩]
  match h : lastN 1 pts with
  | [] => rfl
  | [_] => rfl
  | _ :: _ :: _ => rw [h] at h1; simp at h1; omega

theorem roomG_evict {n w : Nat} {pts : List (List F)} {p : List F × (Tuple → F)} {y : List F} {ys : List (List F)} (h : lastN w pts = y :: ys)
    (hw : ys.length + 1 = w) (hne : ys ≠ []) :
    roomG A n w pts p =
      (List.zipWith (fun x m => A.sub m (A.div (A.sub x m) (A.ofInt ys.length))) y p.1, fun a =>
        remS A (removeRule A (A.ofInt ys.length))
          (List.zipWith (fun x m => A.sub x m) y (List.zipWith (fun x m => A.sub m (A.div (A.sub x m) (A.ofInt ys.length))) y p.1))
          p.2 a.sum.toNat a) := by
  unfold roomG
  rw [if_pos ⟨by omega, by rw [h]; simpa using hw⟩, h]
  cases ys with
  | nil => exact absurd rfl hne
  | cons z ys => rfl

/-! ### Depth -/

theorem sum_nonneg {b : Tuple} (h : ∀ k ∈ b, 0 ≤ k) : 0 ≤ b.sum := List.sum_nonneg h

theorem all_zero_of_sum {b : Tuple} (h : ∀ k ∈ b, 0 ≤ k) (hz : b.sum = 0) : ∀ k ∈ b, k = 0 := by
  induction b with
  | nil => simp
  | cons x b ih =>
    intro k hk
    have h1 := h x List.mem_cons_self
    have h2 : 0 ≤ b.sum := sum_nonneg fun k hk => h k (List.mem_cons_of_mem _ hk)
    rw [List.sum_cons] at hz
    rcases List.mem_cons.1 hk with rfl | hk
    · omega
    · exact ih (fun k hk => h k (List.mem_cons_of_mem _ hk)) (by omega) k hk

theorem sum_pos {b : Tuple} (h : ∀ k ∈ b, 0 ≤ k) (h0 : Joint.abs b ≠ 0) : 0 < b.sum := by
  by_contra hc
  exact h0 (abs_zero (all_zero_of_sum h (le_antisymm (not_lt.1 hc) (sum_nonneg h))))

theorem TOK.nonneg {n : Nat} {a : Tuple} (h : TOK n a) : ∀ k ∈ a, 0 ≤ k := fun k hk => (h.2 k hk).1

theorem TOK.le {n : Nat} {a : Tuple} (h : TOK n a) : ∀ k ∈ a, k ≤ 65 := fun k hk => (h.2 k hk).2

/-- A tuple looked up has a smaller order. -/
theorem subV_lt {n : Nat} {a b : Tuple} (ha : TOK n a) (hb : Under b a) (h0 : Joint.abs b ≠ 0) :
    TOK n (subV a b) ∧ (subV a b).sum.toNat < a.sum.toNat := by
  obtain ⟨h1, h2, -⟩ := subV_under hb ha.le
  have h3 := sum_pos (ha.under hb).nonneg h0
  have h4 := sum_nonneg (ha.under h1).nonneg
  exact ⟨ha.under h1, by omega⟩

theorem remS_depth {n : Nat} (r : Rule F) (δ : List F) (S : Tuple → F) : ∀ (k j : Nat) (a : Tuple), TOK n a → a.sum.toNat ≤ k → a.sum.toNat ≤ j →
    remS A r δ S k a = remS A r δ S j a := by
  intro k
  induction k with
  | zero =>
    intro j a ha hk _
    cases j with
    | zero => rfl
    | succ j =>
      refine newV_congr A fun b hb h0 _ => ?_
      have := (subV_lt ha hb h0).2
      omega
  | succ k ih =>
    intro j a ha hk hj
    cases j with
    | zero =>
      refine newV_congr A fun b hb h0 _ => ?_
      have := (subV_lt ha hb h0).2
      omega
    | succ j =>
      refine newV_congr A fun b hb h0 _ => ?_
      obtain ⟨h1, h2⟩ := subV_lt ha hb h0
      exact ih j _ h1 (by omega) (by omega)

/-- The sums after a removal come from the old sum and the new sums below. -/
theorem remS_eq {n : Nat} (r : Rule F) (δ : List F) (S : Tuple → F) {a : Tuple} (ha : TOK n a) :
    remS A r δ S a.sum.toNat a = newV A r δ (S a) (fun c => remS A r δ S c.sum.toNat c) a := by
  cases h : a.sum.toNat with
  | zero =>
    refine newV_congr A fun b hb h0 _ => ?_
    have := (subV_lt ha hb h0).2
    omega
  | succ k =>
    refine newV_congr A fun b hb h0 _ => ?_
    obtain ⟨h1, h2⟩ := subV_lt ha hb h0
    exact remS_depth A r δ S _ _ _ h1 (by omega) le_rfl

/-! ### The order of a tuple -/

theorem abs_of_small {n : Nat} {b : Tuple} (h : TOK n b) (hs : b.sum < 2 ^ 63) : Joint.abs b = b.sum := by
  obtain ⟨b', rfl⟩ := exists_up' h.nonneg
  have hsum : ((b'.sum : Nat) : Int) = (Joint.up b').sum := by
    unfold Joint.up
    clear h hs
    induction b' with
    | nil => rfl
    | cons x l ih => simp [ih]
  rw [Joint.abs_up (by omega), hsum]

theorem under_sum_le {a t : Tuple} (h : Under a t) : a.sum ≤ t.sum := by
  unfold Under at h
  induction h with
  | nil => simp
  | cons h h' ih => simp only [List.sum_cons]; omega

theorem under_eq_of_sum {a t : Tuple} (h : Under a t) (hs : a.sum = t.sum) : a = t := by
  unfold Under at h
  induction h with
  | nil => rfl
  | @cons x y a t h h' ih =>
    have := under_sum_le h'
    simp only [List.sum_cons] at hs
    rw [ih (by omega), show x = y by omega]

/-- What makes the sums of order at most one stay zero. -/
structure ZRule (r : Rule F) : Prop where
  base : A.add (A.ofInt 0) (r.base (A.ofInt 0)) = A.ofInt 0
  full : ∀ dp, r.op (A.ofInt 0) (r.full 1 dp) = A.ofInt 0

theorem newV_zero {n : Nat} {r : Rule F} (hr : ZRule A r) {δ : List F} {look : Tuple → F} {a : Tuple} (ha : TOK n a) (h1 : a.sum ≤ 1) :
    newV A r δ (A.ofInt 0) look a = A.ofInt 0 := by
  unfold newV
  suffices H : ∀ l : List Tuple, (∀ b ∈ l, Under b a) → l.foldl (termV A r δ (A.ofInt 0) look a) (A.ofInt 0) = A.ofInt 0 from
    H _ fun b hb => mem_visited.1 hb
  intro l
  induction l with
  | nil => intro _; rfl
  | cons b l ih =>
    intro hl
    have hb := hl b List.mem_cons_self
    have hle := under_sum_le hb
    rw [List.foldl_cons]
    have : termV A r δ (A.ofInt 0) look a (A.ofInt 0) b = A.ofInt 0 := by
      unfold termV
      by_cases h0 : Joint.abs b = 0
      · rw [if_pos h0, hr.base]
      · have hp := sum_pos (ha.under hb).nonneg h0
        have he : b = a := under_eq_of_sum hb (by omega)
        rw [if_neg h0, if_pos (by simp [eq, he]), abs_of_small (ha.under hb) (by omega)]
        rw [show b.sum.toNat = 1 by omega, hr.full]
    rw [this]
    exact ih fun b hb => hl b (List.mem_cons_of_mem _ hb)

/-! ### Removal -/

/-- No tuple of order two or more is below two configured tuples. -/
def NoOver (ts : List Tuple) : Prop := ts.Pairwise fun t u => ∀ a, Under a t → Under a u → a.sum ≤ 1

theorem removeAll_new {n : Nat} {ts : List Tuple} (hts : ∀ t ∈ ts, TOK n t) (hc : NoColl ts) (hov : NoOver ts) {r : Rule F} (hf : r.fresh = true)
    (hz : ZRule A r) {δ : List F} (hδ : δ.length = n) {s s' ns' : Map F} (hk : KeyInv (keyOf ts) s)
    (h0 : ∀ a, Tr ts a → a.sum ≤ 1 → s (Joint.hash a) = some (A.ofInt 0)) (h : removeAll A r δ ts s s = .val (s', ns', none)) :
    s' = ns' ∧ KeyInv (keyOf ts) s' ∧ (∀ a, Tr ts a → a.sum ≤ 1 → s' (Joint.hash a) = some (A.ofInt 0)) ∧
      ∀ a, Tr ts a → s' (Joint.hash a) = some (newV A r δ (get A s (Joint.hash a)) (fun c => get A s' (Joint.hash c)) a) := by
  have H : ∀ (l : List Tuple) (s s' ns' : Map F), (∀ t ∈ l, t ∈ ts) → NoOver l → KeyInv (keyOf ts) s →
      (∀ a, Tr ts a → a.sum ≤ 1 → s (Joint.hash a) = some (A.ofInt 0)) → removeAll A r δ l s s = .val (s', ns', none) →
      s' = ns' ∧ KeyInv (keyOf ts) s' ∧ (∀ a, Tr ts a → a.sum ≤ 1 → s' (Joint.hash a) = some (A.ofInt 0)) ∧
      (∀ a, Tr l a → 1 < a.sum → s' (Joint.hash a) = some (newV A r δ (get A s (Joint.hash a)) (fun c => get A s' (Joint.hash c)) a)) ∧
      ∀ a, Tr ts a → 1 < a.sum → ¬ Tr l a → s' (Joint.hash a) = s (Joint.hash a) := by
    intro l
    induction l with
    | nil =>
      intro s s' ns' _ _ hk h0 h
      simp only [removeAll, Go.val.injEq, Prod.mk.injEq, and_true] at h
      obtain ⟨rfl, rfl⟩ := h
      exact ⟨rfl, hk, h0, by rintro a ⟨t, ht, _⟩; simp at ht, fun _ _ _ _ => rfl⟩
    | cons t l ih =>
      intro s s' ns' hl hov hk h0 h
      have ht := hl t List.mem_cons_self
      have hsub : ∀ a, Under a t → Tr ts a := fun a ha => ⟨t, ht, ha⟩
      have hinj : ∀ a b, Under a t → Under b t → Joint.hash a = Joint.hash b → a = b := fun a b ha hb => hc a b (hsub a ha) (hsub b hb)
      have hov' := List.pairwise_cons.1 hov
      set s1 := (visited false t).foldl (stepV A r δ s) s with hs1
      have e1 : updateTuple A r false δ s t s = .val (s1, []) :=
        updateTuple_eq A hδ (hts t ht) (fun a ha => sep_of hc ((hts t ht).under ha) (hsub a ha)) s s
      have hk1 : KeyInv (keyOf ts) s1 := by
        obtain ⟨m, e, hm⟩ := updateTuple_val A hts hδ (keeps_keys A ts r δ s) false ht s hk
        rw [e1] at e
        simp only [Go.val.injEq, Prod.mk.injEq, and_true] at e
        exact e ▸ hm
      simp only [removeAll, e1] at h
      rw [copy_eq hk hk1] at h
      have hnew : ∀ a, Under a t → s1 (Joint.hash a) = some (newV A r δ (get A s (Joint.hash a)) (fun c => get A s1 (Joint.hash c)) a) :=
        fun a ha => foldl_stepV_new A hf (hts t ht) s hinj ha
      have hold : ∀ a, Tr ts a → ¬ Under a t → s1 (Joint.hash a) = s (Joint.hash a) := by
        intro a ha hna
        refine foldl_stepV_other A _ _ fun b hb he => hna ?_
        have := hc b a (hsub b (mem_visited.1 hb)) ha he
        exact this ▸ mem_visited.1 hb
      have h01 : ∀ a, Tr ts a → a.sum ≤ 1 → s1 (Joint.hash a) = some (A.ofInt 0) := by
        intro a ha h1
        by_cases hat : Under a t
        · rw [hnew a hat, show get A s (Joint.hash a) = A.ofInt 0 by simp [get, h0 a ha h1], newV_zero A hz ((hts t ht).under hat) h1]
        · rw [hold a ha hat, h0 a ha h1]
      obtain ⟨i1, i2, i3, i4, i5⟩ := ih s1 s' ns' (fun t ht => hl t (List.mem_cons_of_mem _ ht)) hov'.2 hk1 h01 h
      have hdis : ∀ a, Under a t → 1 < a.sum → ¬ Tr l a := by
        rintro a ha h1 ⟨u, hu, hau⟩
        have := hov'.1 u hu a ha hau
        omega
      refine ⟨i1, i2, i3, fun a ha h1 => ?_, fun a ha h1 hna => ?_⟩
      · obtain ⟨u, hu, hau⟩ := ha
        rcases List.mem_cons.1 hu with rfl | hu
        · rw [i5 a (hsub a hau) h1 (hdis a hau h1), hnew a hau]
          congr 1
          refine newV_congr A fun b hb hb0 _ => ?_
          have hs := under_trans (subV_under hb ((hts _ ht).under hau).le).1 hau
          unfold get
          by_cases h2 : (subV a b).sum ≤ 1
          · rw [h01 _ (hsub _ hs) h2, i3 _ (hsub _ hs) h2]
          · rw [i5 _ (hsub _ hs) (not_le.1 h2) (hdis _ hs (not_le.1 h2))]
        · have hnt : ¬ Under a t := fun hat => hdis a hat h1 ⟨u, hu, hau⟩
          rw [i4 a ⟨u, hu, hau⟩ h1]
          simp only [get]
          rw [hold a ⟨u, hl u (List.mem_cons_of_mem _ hu), hau⟩ hnt]
      · have hnt : ¬ Under a t := fun hat => hna ⟨t, List.mem_cons_self, hat⟩
        rw [i5 a ha h1 fun ⟨u, hu, hau⟩ => hna ⟨u, List.mem_cons_of_mem _ hu, hau⟩, hold a ha hnt]
  obtain ⟨i1, i2, i3, i4, -⟩ := H ts s s' ns' (fun _ h => h) hov hk h0 h
  refine ⟨i1, i2, i3, fun a ha => ?_⟩
  by_cases h1 : a.sum ≤ 1
  · obtain ⟨t, ht, hat⟩ := ha
    rw [i3 a ⟨t, ht, hat⟩ h1, show get A s (Joint.hash a) = A.ofInt 0 by simp [get, h0 a ⟨t, ht, hat⟩ h1], newV_zero A hz ((hts t ht).under hat) h1]
  · exact i4 a ha (not_le.1 h1)

/-! ### The invariant -/

/-- What a core holds: `p` is the state as a function of the points. -/
def Holds (ts : List Tuple) (p : List F × (Tuple → F)) (m : List F) (s ns : Map F) : Prop :=
  m = p.1 ∧ s = ns ∧ ∀ a, Tr ts a → s (Joint.hash a) = some (p.2 a)

theorem Holds.get {ts : List Tuple} {p : List F × (Tuple → F)} {m : List F} {s ns : Map F} (h : Holds ts p m s ns) {a : Tuple} (ha : Tr ts a) :
    get A s (Joint.hash a) = p.2 a := by simp [JFP.get, h.2.2 a ha]

/-- The rules that matter for the windows of two or more points. -/
def ZWin (w : Nat) : Prop := ∀ k : Nat, 1 ≤ k → k ≤ w → ZRule A (addRule A (A.ofInt k)) ∧ ZRule A (removeRule A (A.ofInt k))

theorem zero_key {ts : List Tuple} {s : Map F} (hk : KeyInv (keyOf ts) s) (hz : AllZero A s) {a : Tuple} (ha : Tr ts a) :
    s (Joint.hash a) = some (A.ofInt 0) := by
  obtain ⟨t, ht, hat⟩ := ha
  have := (hk (Joint.hash a)).2 ⟨t, ht, a, hat, rfl⟩
  cases hs : s (Joint.hash a) with
  | none => exact absurd hs this
  | some v => rw [hz _ v hs]

theorem eq_of_zero {ts : List Tuple} {s ns : Map F} (hk : KeyInv (keyOf ts) s) (hnk : KeyInv (keyOf ts) ns) (hz : AllZero A s)
    (hnz : AllZero A ns) : s = ns := by
  funext k
  cases h1 : s k with
  | none =>
    cases h2 : ns k with
    | none => rfl
    | some v => exact absurd h1 ((hk k).2 ((hnk k).1 (by rw [h2]; simp)))
  | some v =>
    cases h2 : ns k with
    | none => exact absurd h2 ((hnk k).2 ((hk k).1 (by rw [h1]; simp)))
    | some u => rw [hz k v h1, hnz k u h2]

/-- A core without hash collisions is the function `gst` of its points: for windows of two or more points if the tuples do not overlap and
the sums of order one stay zero. -/
theorem track_gst {n w : Nat} {d : Option F} {ts : List Tuple} (hts : ∀ t ∈ ts, TOK n t) (hc : NoColl ts) (hd : w ≠ 0 → d = none)
    (hov : 2 ≤ w → NoOver ts ∧ ZWin A w) :
    Track A n w d ts
      (fun xs m s ns => Holds ts (gst A n w d xs) m s ns ∧ KeyInv (keyOf ts) s ∧
        (2 ≤ w → ∀ a, Tr ts a → a.sum ≤ 1 → s (Joint.hash a) = some (A.ofInt 0)))
      (fun xs m s ns => Holds ts (roomG A n w xs (gst A n w d xs)) m s ns ∧
        (2 ≤ w → ∀ a, Tr ts a → a.sum ≤ 1 → s (Joint.hash a) = some (A.ofInt 0))) where
  zero := fun s ns hk hnk hz hnz =>
    ⟨⟨rfl, eq_of_zero A hk hnk hz hnz, fun a ha => zero_key A hk hz ha⟩, hk, fun _ a ha _ => zero_key A hk hz ha⟩
  room := fun xs m s ns hr hI => by rw [roomG_room A hr]; exact ⟨hI.1, hI.2.2⟩
  evict1 := fun xs m s ns hw hx hI => by
    obtain ⟨⟨-, h2, -⟩, hk, -⟩ := hI
    rw [roomG_one A hw hx]
    subst h2
    have := fun a ha => zero_key A (zeroMap_keys A hk) (zeroMap_zero A s) (a := a) ha
    exact ⟨⟨rfl, rfl, this⟩, fun _ a ha _ => this a ha⟩
  evict := fun xs y ys m s ns s' ns' hl hw hne hyl hml hk hnk hI e => by
    obtain ⟨⟨h1, h2, h3⟩, -, h4⟩ := hI
    subst h2
    have hpos : 0 < ys.length := List.length_pos_iff.2 hne
    have hw2 : 2 ≤ w := by omega
    have hδ : (List.zipWith (fun x m => A.sub x m) y (List.zipWith (fun x m => A.sub m (A.div (A.sub x m) (A.ofInt ys.length))) y m)).length = n := by
      simp [hyl, hml]
    obtain ⟨e1, -, e2, e3⟩ := removeAll_new A hts hc (hov hw2).1 (r := removeRule A (A.ofInt ys.length)) rfl ((hov hw2).2 ys.length hpos (by omega)).2
      hδ hk (h4 hw2) e
    rw [roomG_evict A hl hw hne]
    rw [h1] at *
    refine ⟨⟨rfl, e1, ?_⟩, fun _ => e2⟩
    have key : ∀ (k : Nat) (a : Tuple), a.sum.toNat ≤ k → Tr ts a → s' (Joint.hash a) = some (remS A (removeRule A (A.ofInt ys.length))
        (List.zipWith (fun x m => A.sub x m) y (List.zipWith (fun x m => A.sub m (A.div (A.sub x m) (A.ofInt ys.length))) y (gst A n w d xs).1))
        (gst A n w d xs).2 a.sum.toNat a) := by
      intro k
      induction k with
      | zero =>
        intro a hk ha
        have htok : TOK n a := by obtain ⟨t, ht, hat⟩ := ha; exact (hts t ht).under hat
        rw [e3 a ha, remS_eq A _ _ _ htok, show get A s (Joint.hash a) = (gst A n w d xs).2 a by simp [get, h3 a ha]]
        congr 1
        refine newV_congr A fun b hb h0 _ => ?_
        have := (subV_lt htok hb h0).2
        omega
      | succ k ih =>
        intro a hk ha
        have htok : TOK n a := by obtain ⟨t, ht, hat⟩ := ha; exact (hts t ht).under hat
        rw [e3 a ha, remS_eq A _ _ _ htok, show get A s (Joint.hash a) = (gst A n w d xs).2 a by simp [get, h3 a ha]]
        congr 1
        refine newV_congr A fun b hb h0 _ => ?_
        have := (subV_lt htok hb h0).2
        simp only [get]
        rw [ih _ (by omega) (ha.under (subV_under hb htok.le).1)]
        rfl
    exact fun a ha => key _ a le_rfl ha
  add := fun hdn xs x m s ns ns' hxl hml hk hnk hI e => by
    subst hdn
    obtain ⟨⟨h1, h2, h3⟩, h4⟩ := hI
    have hδ : (List.zipWith (fun x m => A.sub x m) x m).length = n := by simp [hxl, hml]
    have hnk' : KeyInv (keyOf ts) ns' := by
      obtain ⟨m', e', hm⟩ := updateAll_val A hts hδ (keeps_keys A ts _ _ s) ts (fun _ h => h) ns hnk
      rw [e] at e'
      simp only [Go.val.injEq, Prod.mk.injEq, and_true] at e'
      exact e' ▸ hm
    have hv := updateAll_old A hts hc rfl hδ e
    rw [copy_eq hk hnk', gst_add]
    refine ⟨⟨by rw [h1], rfl, fun a ha => ?_⟩, hnk', fun hw2 a ha ha1 => ?_⟩
    · rw [hv a ha, show get A s (Joint.hash a) = (roomG A n w xs (gst A n w none xs)).2 a by simp [get, h3 a ha], h1]
      congr 1
      refine newV_congr A fun b hb h0 _ => ?_
      have htok : TOK n a := by obtain ⟨t, ht, hat⟩ := ha; exact (hts t ht).under hat
      simp only [get, h3 _ (ha.under (subV_under hb htok.le).1)]
      rfl
    · have htok : TOK n a := by obtain ⟨t, ht, hat⟩ := ha; exact (hts t ht).under hat
      have hlen : 1 ≤ (lastN w (xs ++ [x])).length := List.length_pos_iff.2 (lastN_ne_nil (by simp))
      have hle := lastN_length_le (w := w) (by omega) (xs ++ [x])
      rw [hv a ha, show get A s (Joint.hash a) = A.ofInt 0 by simp [get, h4 hw2 a ha ha1],
        newV_zero A ((hov hw2).2 _ hlen hle).1 htok ha1]
  decay := fun dd hdd xs x m s ns ns' hxl hml hk hnk hI e => by
    subst hdd
    obtain ⟨⟨h1, h2, h3⟩, h4⟩ := hI
    have hδ : (List.zipWith (fun x m => A.sub x m) x m).length = n := by simp [hxl, hml]
    have hnk' : KeyInv (keyOf ts) ns' := by
      obtain ⟨m', e', hm⟩ := updateAll_val A hts hδ (keeps_keys A ts _ _ s) ts (fun _ h => h) ns hnk
      rw [e] at e'
      simp only [Go.val.injEq, Prod.mk.injEq, and_true] at e'
      exact e' ▸ hm
    have hv := updateAll_old A hts hc rfl hδ e
    rw [copy_eq hk hnk', gst_decay]
    refine ⟨⟨by rw [h1], rfl, fun a ha => ?_⟩, hnk', fun hw2 => absurd (hd (by omega)) (by simp)⟩
    rw [hv a ha, show get A s (Joint.hash a) = (roomG A n w xs (gst A n w (some dd) xs)).2 a by simp [get, h3 a ha], h1]
    congr 1
    refine newV_congr A fun b hb h0 _ => ?_
    have htok : TOK n a := by obtain ⟨t, ht, hat⟩ := ha; exact (hts t ht).under hat
    simp only [get, h3 _ (ha.under (subV_under hb htok.le).1)]
    rfl

/-! ### Rounded arithmetic -/

section rounded
variable {rnd : ℚ → ℚ} {pw : ℚ → Nat → ℚ}

theorem zrule_add (h0 : rnd 0 = 0) (hn : rnd (-1) = -1) (hp : ∀ x, pw x 0 = 1) (c : ℚ) :
    ZRule (Arith.rounded rnd pw) (addRule (Arith.rounded rnd pw) c) := by
  constructor <;> simp [addRule, Arith.rounded, h0, hp, sign, hn]

theorem zrule_remove (h0 : rnd 0 = 0) (hn : rnd (-1) = -1) (hp : ∀ x, pw x 0 = 1) (c : ℚ) :
    ZRule (Arith.rounded rnd pw) (removeRule (Arith.rounded rnd pw) c) := by
  constructor <;> simp [removeRule, Arith.rounded, h0, hp, sign, hn]

theorem zrule_decay (h0 : rnd 0 = 0) (hn : ∀ q, rnd (-q) = -rnd q) (hi : ∀ q, rnd (rnd q) = rnd q) (hp : ∀ x, rnd x = x → pw x 1 = x) {d : ℚ}
    (hd : rnd d = d) : ZRule (Arith.rounded rnd pw) (decayRule (Arith.rounded rnd pw) d) := by
  constructor
  · simp [decayRule, Arith.rounded, h0]
  · intro dp
    simp only [decayRule, Arith.rounded]
    rw [hp (-d) (by rw [hn, hd]), hp _ (hi _), mul_neg, hn, mul_comm d]
    simp [h0]

theorem zwin (h0 : rnd 0 = 0) (hn : rnd (-1) = -1) (hp : ∀ x, pw x 0 = 1) (w : Nat) : ZWin (Arith.rounded rnd pw) w :=
  fun _ _ _ => ⟨zrule_add h0 hn hp _, zrule_remove h0 hn hp _⟩

end rounded

end Verif.JFP
