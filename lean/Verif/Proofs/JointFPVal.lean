import Verif.Proofs.JointFP

/-! # The numbers of the joint core over an arbitrary arithmetic

What one pass over the tuples does to the sums, for tuples without hash collisions. -/

namespace Verif.JFP
open Verif.Spec Verif.MathUtil
open Verif.FP (Arith)
open Verif.Joint (Tuple Map Core Config forEach iter sub abs eq Under Leq visited visited_order nodup_visited iter_eq mem_visited KeyInv keyOf)

variable {F : Type} (A : Arith F)

/-- A tuple below a configured one. -/
def Tr (ts : List Tuple) (a : Tuple) : Prop := ∃ t ∈ ts, Under a t

/-- No two of them have the same hash. -/
def NoColl (ts : List Tuple) : Prop := ∀ a b, Tr ts a → Tr ts b → Joint.hash a = Joint.hash b → a = b

theorem under_trans {a b c : Tuple} (h1 : Under a b) (h2 : Under b c) : Under a c := by
  unfold Under at *
  induction h1 generalizing c with
  | nil => exact h2
  | cons h h' ih =>
    cases h2 with
    | cons g g' => exact .cons ⟨h.1, h.2.trans g.2⟩ (ih g')

theorem Tr.under {ts : List Tuple} {a b : Tuple} (h : Tr ts a) (hb : Under b a) : Tr ts b := by
  obtain ⟨t, ht, ha⟩ := h
  exact ⟨t, ht, under_trans hb ha⟩

theorem under_self {n : Nat} {a : Tuple} (h : TOK n a) : Under a a := by
  obtain ⟨-, h⟩ := h
  unfold Under
  induction a with
  | nil => exact .nil
  | cons x t ih => exact .cons ⟨(h x List.mem_cons_self).1, le_rfl⟩ (ih fun k hk => h k (List.mem_cons_of_mem _ hk))

theorem under_leq {a b : Tuple} (h : Under a b) : Leq a b := by
  unfold Under at h
  unfold Leq
  exact h.imp fun _ _ h => h.2

/-- What `subV` is. -/
theorem subV_under {a b : Tuple} (h : Under b a) (ha : ∀ k ∈ a, k ≤ 65) :
    Under (subV a b) a ∧ (subV a b).sum = a.sum - b.sum ∧ (subV a b = a → ∀ k ∈ b, k = 0) := by
  unfold Under at *
  induction h with
  | nil => exact ⟨.nil, by simp [subV], by simp⟩
  | @cons x y b a h h' ih =>
    obtain ⟨i1, i2, i3⟩ := ih fun k hk => ha k (List.mem_cons_of_mem _ hk)
    have hy := ha y List.mem_cons_self
    have hw : wrap (y - x) = y - x := wrap_small (by omega) (by omega)
    simp only [subV, List.zipWith_cons_cons, hw] at *
    refine ⟨.cons (by omega) i1, by simp [i2]; ring, fun he k hk => ?_⟩
    obtain ⟨e1, e2⟩ := List.cons.inj he
    rcases List.mem_cons.1 hk with rfl | hk
    · omega
    · exact i3 e2 k hk

theorem abs_zero {b : Tuple} (h : ∀ k ∈ b, k = 0) : abs b = 0 := by
  unfold Joint.abs
  suffices H : ∀ s, (s : Int) = 0 → b.foldl (fun s i => wrap (s + i)) s = 0 from H 0 rfl
  induction b with
  | nil => exact fun s h => h
  | cons k b ih =>
    intro s hs
    rw [List.foldl_cons, hs, h k List.mem_cons_self]
    exact ih (fun j hj => h j (List.mem_cons_of_mem _ hj)) _ (by decide)

theorem subV_ne {a b : Tuple} (h : Under b a) (ha : ∀ k ∈ a, k ≤ 65) (h0 : abs b ≠ 0) : subV a b ≠ a :=
  fun he => h0 (abs_zero ((subV_under h ha).2.2 he))

/-! ### One tuple -/

/-- The new sum of a tuple. -/
def newV (r : Rule F) (δ : List F) (base : F) (look : Tuple → F) (a : Tuple) : F :=
  (visited false a).foldl (termV A r δ base look a) (A.ofInt 0)

theorem foldl_congr' {α β : Type} {f g : β → α → β} (l : List α) (h : ∀ a ∈ l, ∀ v, f v a = g v a) (v : β) : l.foldl f v = l.foldl g v := by
  induction l generalizing v with
  | nil => rfl
  | cons a l ih =>
    rw [List.foldl_cons, List.foldl_cons, h a List.mem_cons_self]
    exact ih (fun a ha => h a (List.mem_cons_of_mem _ ha)) _

theorem termV_congr {r : Rule F} {δ : List F} {base : F} {look look' : Tuple → F} {a b : Tuple} (acc : F)
    (h : abs b ≠ 0 → b ≠ a → look (subV a b) = look' (subV a b)) : termV A r δ base look a acc b = termV A r δ base look' a acc b := by
  unfold termV
  by_cases h0 : abs b = 0
  · rw [if_pos h0, if_pos h0]
  rw [if_neg h0, if_neg h0]
  by_cases he : eq b a = true
  · rw [if_pos he, if_pos he]
  rw [if_neg he, if_neg he, h h0 (by simpa [eq] using he)]

/-- It depends on the sums strictly below only. -/
theorem newV_congr {r : Rule F} {δ : List F} {base : F} {look look' : Tuple → F} {a : Tuple}
    (h : ∀ b, Under b a → abs b ≠ 0 → b ≠ a → look (subV a b) = look' (subV a b)) :
    newV A r δ base look a = newV A r δ base look' a :=
  foldl_congr' _ (fun b hb v => termV_congr A v (h b (mem_visited.1 hb))) _

theorem set_set (m : Map F) (h : Int) (v v' : F) : Map.set (Map.set m h v) h v' = Map.set m h v' := by
  unfold Map.set
  exact Function.update_idem _ _ _

theorem get_set (m : Map F) (h : Int) (v : F) : get A (Map.set m h v) h = v := by simp [get, Map.set]

theorem get_set_ne (m : Map F) {h k : Int} (hk : k ≠ h) (v : F) : get A (Map.set m h v) k = get A m k := by
  simp [get, Map.set, Function.update_of_ne hk]

/-- Different tuples looked up have different hashes. -/
def Sep (a : Tuple) : Prop := ∀ b, Under b a → abs b ≠ 0 → b ≠ a → Joint.hash (subV a b) ≠ Joint.hash a

theorem sep_of {n : Nat} {ts : List Tuple} (hc : NoColl ts) {a : Tuple} (ha : TOK n a) (ht : Tr ts a) : Sep a := by
  intro b hb h0 _ he
  have h65 : ∀ k ∈ a, k ≤ 65 := fun k hk => (ha.2 k hk).2
  exact subV_ne hb h65 h0 (hc _ _ (ht.under (subV_under hb h65).1) ht he)

/-- The inner loop. -/
theorem inner_val {n : Nat} (r : Rule F) {δ : List F} {a : Tuple} (ha : TOK n a) (hδ : δ.length = n) (sums ns : Map F) (hsep : Sep a) :
    iter a false (visit A r δ sums a) (Map.set ns (Joint.hash a) (A.ofInt 0)) =
      .val (Map.set ns (Joint.hash a)
        (newV A r δ (get A sums (Joint.hash a)) (fun c => get A (if r.fresh then ns else sums) (Joint.hash c)) a), []) := by
  rw [iter_eq]
  unfold newV
  suffices H : ∀ (l : List Tuple) (v : F), (∀ b ∈ l, Under b a) → forEach (visit A r δ sums a) l (Map.set ns (Joint.hash a) v) =
      .val (Map.set ns (Joint.hash a) (l.foldl (termV A r δ (get A sums (Joint.hash a))
        (fun c => get A (if r.fresh then ns else sums) (Joint.hash c)) a) v), []) from
    H _ _ fun b hb => mem_visited.1 hb
  intro l
  induction l with
  | nil => intro v _; rfl
  | cons b l ih =>
    intro v hl
    have hb := hl b List.mem_cons_self
    simp only [forEach, visit_val A r hb ha hδ, set_set, get_set]
    rw [termV_congr A (look' := fun c => get A (if r.fresh then ns else sums) (Joint.hash c)) v, ih _ fun b hb => hl b (List.mem_cons_of_mem _ hb)]
    · rfl
    · intro h0 hne
      cases r.fresh with
      | false => rfl
      | true =>
        simp only [if_true]
        exact get_set_ne A _ (hsep b hb h0 hne) _

/-- One step of the outer loop. -/
def stepV (r : Rule F) (δ : List F) (sums : Map F) (ns : Map F) (a : Tuple) : Map F :=
  Map.set ns (Joint.hash a) (newV A r δ (get A sums (Joint.hash a)) (fun c => get A (if r.fresh then ns else sums) (Joint.hash c)) a)

theorem stepV_self (r : Rule F) (δ : List F) (sums ns : Map F) (a : Tuple) : stepV A r δ sums ns a (Joint.hash a) =
    some (newV A r δ (get A sums (Joint.hash a)) (fun c => get A (if r.fresh then ns else sums) (Joint.hash c)) a) := by
  unfold stepV Map.set
  rw [Function.update_self]

theorem stepV_ne (r : Rule F) (δ : List F) (sums ns : Map F) {a : Tuple} {k : Int} (h : k ≠ Joint.hash a) : stepV A r δ sums ns a k = ns k := by
  unfold stepV Map.set
  rw [Function.update_of_ne h]

theorem updateTuple_eq {n : Nat} {r : Rule F} {rev : Bool} {δ : List F} (hδ : δ.length = n) {t : Tuple} (ht : TOK n t)
    (hsep : ∀ a, Under a t → Sep a) (sums ns : Map F) :
    updateTuple A r rev δ sums t ns = .val ((visited rev t).foldl (stepV A r δ sums) ns, []) := by
  unfold updateTuple
  rw [iter_eq]
  suffices H : ∀ (l : List Tuple) (ns : Map F), (∀ b ∈ l, Under b t) →
      forEach (fun a ns => iter a false (visit A r δ sums a) (Map.set ns (Joint.hash a) (A.ofInt 0))) l ns =
        .val (l.foldl (stepV A r δ sums) ns, []) from H _ _ fun b hb => mem_visited.1 hb
  intro l
  induction l with
  | nil => intro ns _; rfl
  | cons a l ih =>
    intro ns hl
    have ha := hl a List.mem_cons_self
    simp only [forEach, inner_val A r (ht.under ha) hδ sums ns (hsep a ha), ih _ fun b hb => hl b (List.mem_cons_of_mem _ hb)]
    rfl

theorem foldl_stepV_other {r : Rule F} {δ : List F} {sums : Map F} (l : List Tuple) (ns : Map F) {k : Int} (hk : ∀ a ∈ l, Joint.hash a ≠ k) :
    l.foldl (stepV A r δ sums) ns k = ns k := by
  induction l generalizing ns with
  | nil => rfl
  | cons a l ih =>
    rw [List.foldl_cons, ih _ fun b hb => hk b (List.mem_cons_of_mem _ hb)]
    unfold stepV Map.set
    exact Function.update_of_ne (hk a List.mem_cons_self).symm _ _

/-- `add` and `addDecay`: the new sums come from the old ones. -/
theorem foldl_stepV_old {r : Rule F} (hf : r.fresh = false) {δ : List F} {sums : Map F} (l : List Tuple) (ns : Map F)
    (hinj : ∀ a ∈ l, ∀ b ∈ l, Joint.hash a = Joint.hash b → a = b) {a : Tuple} (ha : a ∈ l) :
    l.foldl (stepV A r δ sums) ns (Joint.hash a) =
      some (newV A r δ (get A sums (Joint.hash a)) (fun c => get A sums (Joint.hash c)) a) := by
  induction l generalizing ns with
  | nil => simp at ha
  | cons b l ih =>
    rw [List.foldl_cons]
    by_cases hal : a ∈ l
    · exact ih _ (fun a ha b hb => hinj a (List.mem_cons_of_mem _ ha) b (List.mem_cons_of_mem _ hb)) hal
    · have hab : a = b := by
        rcases List.mem_cons.1 ha with h | h
        · exact h
        · exact absurd h hal
      subst hab
      rw [foldl_stepV_other A l _ fun c hc he => ?_]
      · unfold stepV Map.set
        rw [Function.update_self, hf]
        simp only [Bool.false_eq_true, if_false]
      · have := hinj c (List.mem_cons_of_mem _ hc) a List.mem_cons_self he
        exact hal (this ▸ hc)

/-- `remove`: the new sums come from the old sum of the same tuple and the new sums below. -/
theorem foldl_stepV_new {n : Nat} {r : Rule F} (hf : r.fresh = true) {δ : List F} {sums : Map F} {t : Tuple} (ht : TOK n t) (ns : Map F)
    (hinj : ∀ a b, Under a t → Under b t → Joint.hash a = Joint.hash b → a = b) {a : Tuple} (ha : Under a t) :
    (visited false t).foldl (stepV A r δ sums) ns (Joint.hash a) =
      some (newV A r δ (get A sums (Joint.hash a))
        (fun c => get A ((visited false t).foldl (stepV A r δ sums) ns) (Joint.hash c)) a) := by
  obtain ⟨l1, l2, hl⟩ := List.append_of_mem (mem_visited (reverse := false) |>.2 ha)
  have hnd := nodup_visited false t
  have hord := visited_order false t
  rw [hl] at hnd hord
  have hmem : ∀ b, Under b t ↔ b ∈ l1 ++ a :: l2 := fun b => by rw [← hl, mem_visited]
  rw [hl, List.foldl_append, List.foldl_cons]
  have hnot : a ∉ l2 := by
    have := (List.nodup_append.1 hnd).2.1
    exact (List.nodup_cons.1 this).1
  have e1 : ∀ c, Under c t → c ∉ l2 → ∀ m, l2.foldl (stepV A r δ sums) m (Joint.hash c) = m (Joint.hash c) := by
    intro c hc hcn m
    refine foldl_stepV_other A l2 m fun b hb he => hcn ?_
    have := hinj b c ((hmem b).2 (by simp [hb])) hc he
    exact this ▸ hb
  rw [e1 a ha hnot, stepV_self, hf]
  simp only [if_true]
  congr 1
  refine newV_congr A fun b hb h0 hne => ?_
  have h65 : ∀ k ∈ a, k ≤ 65 := fun k hk => ((ht.under ha).2 k hk).2
  have hs := (subV_under hb h65).1
  have hsne := subV_ne hb h65 h0
  have hst := under_trans hs ha
  have hn2 : subV a b ∉ l2 := by
    intro hin
    have h2 := (List.pairwise_append.1 hord).2.1
    have := (List.pairwise_cons.1 h2).1 _ hin
    simp only [Bool.false_eq_true, if_false] at this
    exact this (under_leq hs)
  unfold get
  rw [e1 _ hst hn2, stepV_ne A _ _ _ _ fun he => hsne (hinj _ _ hst ha he)]

/-! ### All tuples -/

/-- `add` and `addDecay`. -/
theorem updateAll_old {n : Nat} {ts : List Tuple} (hts : ∀ t ∈ ts, TOK n t) (hc : NoColl ts) {r : Rule F} (hf : r.fresh = false) {δ : List F}
    (hδ : δ.length = n) {sums ns ns' : Map F} (h : updateAll A r δ sums ts ns = .val (ns', none)) :
    (∀ a, Tr ts a → ns' (Joint.hash a) = some (newV A r δ (get A sums (Joint.hash a)) (fun c => get A sums (Joint.hash c)) a)) := by
  have H : ∀ (l : List Tuple) (ns ns' : Map F), (∀ t ∈ l, t ∈ ts) → updateAll A r δ sums l ns = .val (ns', none) →
      (∀ a, Tr l a → ns' (Joint.hash a) = some (newV A r δ (get A sums (Joint.hash a)) (fun c => get A sums (Joint.hash c)) a)) ∧
        ∀ a, Tr ts a → ¬ Tr l a → ns' (Joint.hash a) = ns (Joint.hash a) := by
    intro l
    induction l with
    | nil =>
      intro ns ns' _ h
      simp only [updateAll, Go.val.injEq, Prod.mk.injEq, and_true] at h
      subst h
      exact ⟨by rintro a ⟨t, ht, _⟩; simp at ht, fun _ _ _ => rfl⟩
    | cons t l ih =>
      intro ns ns' hl h
      have ht := hl t List.mem_cons_self
      have hsub : ∀ a, Under a t → Tr ts a := fun a ha => ⟨t, ht, ha⟩
      simp only [updateAll, updateTuple_eq A hδ (hts t ht) (fun a ha => sep_of hc ((hts t ht).under ha) (hsub a ha))] at h
      obtain ⟨i1, i2⟩ := ih _ _ (fun t ht => hl t (List.mem_cons_of_mem _ ht)) h
      refine ⟨fun a ha => ?_, fun a ha hna => ?_⟩
      · by_cases hal : Tr l a
        · exact i1 a hal
        · obtain ⟨u, hu, hau⟩ := ha
          rcases List.mem_cons.1 hu with rfl | hu
          · rw [i2 a (hsub a hau) hal]
            exact foldl_stepV_old A hf _ _ (fun a ha b hb => hc a b (hsub a (mem_visited.1 ha)) (hsub b (mem_visited.1 hb))) (mem_visited.2 hau)
          · exact absurd ⟨u, hu, hau⟩ hal
      · rw [i2 a ha fun ⟨u, hu, hau⟩ => hna ⟨u, List.mem_cons_of_mem _ hu, hau⟩]
        refine foldl_stepV_other A _ _ fun b hb he => hna ?_
        have := hc b a (hsub b (mem_visited.1 hb)) ha he
        exact ⟨t, List.mem_cons_self, this ▸ mem_visited.1 hb⟩
  exact (H ts ns ns' (fun _ h => h) h).1

theorem copy_eq {key : Int → Prop} {s ns : Map F} (h1 : KeyInv key s) (h2 : KeyInv key ns) : Map.copy s ns = ns := by
  funext k
  unfold Map.copy
  cases hk : ns k with
  | some v => rfl
  | none =>
    by_contra hc
    have := (h1 k).1 hc
    exact (h2 k).2 this hk

end Verif.JFP
