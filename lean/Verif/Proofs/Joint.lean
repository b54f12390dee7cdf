import Verif.Model.Joint
import Verif.Proofs.Tuple
import Verif.Proofs.Window
import Verif.Proofs.Moment
import Mathlib.Algebra.BigOperators.Group.List.Basic

/-! # Proofs about the joint core -/

set_option linter.unusedSectionVars false
set_option linter.unusedSimpArgs false

namespace Verif.Joint
open Verif Verif.Spec Verif.MathUtil

variable {K : Type} [Field K]

/-! ## One tuple of the update loops -/

/-- The contribution of `b` to the new sum of `a`. -/
def term (r : Rule K) (δ : List K) (base : K) (look : List Nat → K) (a b : List Nat) : K :=
  if b.sum = 0 then r.base base
  else if b = a then r.full b.sum (mpow δ b)
  else r.part ((mchoose a b : K) * (-1) ^ b.sum) b.sum (mpow δ b) (look (msub a b))

/-- The new sum of `a`. -/
def total (r : Rule K) (δ : List K) (base : K) (look : List Nat → K) (a : List Nat) : K :=
  ((below a).map (term r δ base look a)).sum

/-- Exponents for which all integer coefficients fit. -/
def Small (a : List Nat) : Prop := (∀ k ∈ a, k ≤ 20) ∧ a.sum ≤ 62

theorem Small.below {a b : List Nat} (h : Small a) (hb : Below b a) : Small b :=
  ⟨hb.mem_le h.1, Nat.le_trans hb.sum_le h.2⟩

theorem coeff_cast {a b : List Nat} (h : Below b a) (hs : a.sum ≤ 62) :
    ((wrap ((mchoose a b : Int) * sign (b.sum : Int)) : Int) : K) = (mchoose a b : K) * (-1) ^ b.sum := by
  have h1 : mchoose a b ≤ 2 ^ 62 := le_trans (mchoose_le h) (Nat.pow_le_pow_right (by decide) hs)
  have h2 : (mchoose a b : Int) ≤ 2 ^ 62 := by exact_mod_cast h1
  have h3 : (0 : Int) ≤ mchoose a b := Int.natCast_nonneg _
  rw [sign_eq]
  have hw : wrap ((mchoose a b : Int) * (-1) ^ b.sum) = (mchoose a b : Int) * (-1) ^ b.sum := by
    rcases neg_one_pow_eq_or Int b.sum with h | h <;> rw [h] <;> exact wrap_small (by omega) (by omega)
  rw [hw]; push_cast; rfl

theorem visit_val (r : Rule K) {δ : List K} {a b : List Nat} (hb : Below b a) (hs : Small a) (hδ : δ.length = a.length) (sums ns : Map K) :
    visit r δ sums (up a) (up b) ns = .val (bump ns (hash (up a))
      (term r δ (Map.get sums (hash (up a))) (fun c => Map.get (if r.fresh then ns else sums) (hash (up c))) a b), []) := by
  unfold visit
  rw [pow_up (by rw [hδ, hb.length])]
  have hlt : b.sum < 2 ^ 63 := lt_of_le_of_lt (Nat.le_trans hb.sum_le hs.2) (by norm_num)
  simp only
  rw [abs_up hlt]
  unfold term
  by_cases h0 : b.sum = 0
  · rw [if_pos (by exact_mod_cast h0), if_pos h0]
  · rw [if_neg (by exact_mod_cast h0), if_neg h0]
    by_cases he : b = a
    · rw [if_pos (by simp [eq, he]), if_pos he, Int.toNat_natCast]
    · rw [if_neg (by simp only [eq, decide_eq_true_eq]; exact fun h => he (up_inj h)), if_neg he]
      unfold visitPart
      rw [multinom_up hb hs.1 hs.2, sub_up hb (lt_of_le_of_lt hs.2 (by norm_num))]
      simp only
      rw [abs_up hlt, coeff_cast hb hs.2, Int.toNat_natCast]

theorem forEach_add {α : Type} {body : α → Map K → Go (Map K × List Err)} {F : K → Map K} {f : α → K} {l : List α}
    (h : ∀ b ∈ l, ∀ v, body b (F v) = .val (F (v + f b), [])) (v : K) :
    forEach body l (F v) = .val (F (v + (l.map f).sum), []) := by
  induction l generalizing v with
  | nil => simp [forEach]
  | cons b l ih =>
    simp only [forEach, List.map_cons, List.sum_cons]
    rw [h b List.mem_cons_self]
    simp only
    rw [ih (fun b hb => h b (List.mem_cons_of_mem _ hb))]
    simp [add_assoc]

theorem bump_set (m : Map K) (h : Int) (v x : K) : bump (Map.set m h v) h x = Map.set m h (v + x) := by
  simp [bump, Map.set, Map.get]

/-- The inner loop computes the new sum of `a`. -/
theorem inner_val (r : Rule K) {δ : List K} {a : List Nat} (hs : Small a) (hδ : δ.length = a.length) (sums ns : Map K)
    (hf : r.fresh = true → ∀ c, Below c a → c ≠ a → hash (up c) ≠ hash (up a)) :
    iter (up a) false (visit r δ sums (up a)) (Map.set ns (hash (up a)) 0) =
      .val (Map.set ns (hash (up a)) (total r δ (Map.get sums (hash (up a)))
        (fun c => Map.get (if r.fresh then ns else sums) (hash (up c))) a), []) := by
  obtain ⟨l, hl, hp, _, _⟩ := exists_visitedN false a
  rw [iter_eq, hl, forEach_map]
  rw [forEach_add (F := fun v => Map.set ns (hash (up a)) v)
    (f := fun b => term r δ (Map.get sums (hash (up a))) (fun c => Map.get (if r.fresh then ns else sums) (hash (up c))) a b)]
  · rw [zero_add, total, (hp.map _).sum_eq]
  · intro b hb v
    have hb' : Below b a := mem_below.1 (hp.mem_iff.1 hb)
    rw [visit_val r hb' hs hδ, bump_set]
    congr 4
    unfold term
    by_cases h0 : b.sum = 0
    · rw [if_pos h0, if_pos h0]
    rw [if_neg h0, if_neg h0]
    by_cases he : b = a
    · rw [if_pos he, if_pos he]
    rw [if_neg he, if_neg he]
    congr 1
    cases hr : r.fresh with
    | false => rfl
    | true =>
      simp only [if_true]
      unfold Map.get Map.set
      rw [Function.update_of_ne]
      apply hf hr _ (msub_below hb')
      intro c
      have := msub_sum hb'
      rw [c] at this; omega

theorem total_congr (r : Rule K) (δ : List K) (base : K) {look look' : List Nat → K} {a : List Nat}
    (h : ∀ c, Below c a → c ≠ a → c.sum ≠ 0 → look c = look' c) : total r δ base look a = total r δ base look' a := by
  unfold total
  congr 1
  apply List.map_congr_left
  intro b hb
  rw [mem_below] at hb
  unfold term
  split_ifs with h0 he
  · rfl
  · rfl
  · rw [h _ (msub_below hb)]
    · intro c
      have := msub_sum hb
      rw [c] at this; omega
    · intro c
      have := msub_sum hb
      exact he (hb.eq_of_sum (by omega))

/-- A pass over a list of tuples whose entry `a` is set to `F a`, given that the entries before it have been set. -/
theorem pass {body : List Nat → Map K → Go (Map K × List Err)} {F : List Nat → K} (l done : List (List Nat)) (ns : Map K)
    (hinj : ∀ a ∈ done ++ l, ∀ b ∈ done ++ l, hash (up a) = hash (up b) → a = b) (hnd : (done ++ l).Nodup)
    (hdone : ∀ a ∈ done, ns (hash (up a)) = some (F a))
    (hbody : ∀ l1 a l2, l1 ++ a :: l2 = done ++ l → a ∈ l → ∀ ns, (∀ c ∈ l1, ns (hash (up c)) = some (F c)) →
      body a ns = .val (Map.set ns (hash (up a)) (F a), [])) :
    ∃ ns', forEach body l ns = .val (ns', []) ∧ (∀ a ∈ done ++ l, ns' (hash (up a)) = some (F a)) ∧
      (∀ k, (∀ a ∈ l, hash (up a) ≠ k) → ns' k = ns k) := by
  induction l generalizing done ns with
  | nil => exact ⟨ns, rfl, by simpa using hdone, fun _ _ => rfl⟩
  | cons a l ih =>
    have e := hbody done a l rfl List.mem_cons_self ns hdone
    have hassoc : done ++ a :: l = (done ++ [a]) ++ l := by simp
    obtain ⟨ns', e', h1, h2⟩ := ih (done ++ [a]) (Map.set ns (hash (up a)) (F a)) (by rw [← hassoc]; exact hinj) (by rw [← hassoc]; exact hnd)
      (by
        intro c hc
        rcases List.mem_append.1 hc with hc | hc
        · have hne : hash (up c) ≠ hash (up a) := by
            intro h
            exact (List.nodup_append.1 hnd).2.2 c hc a List.mem_cons_self (hinj c (by simp [hc]) a (by simp) h)
          rw [Map.set, Function.update_of_ne hne, hdone c hc]
        · rw [List.mem_singleton] at hc
          subst hc; simp [Map.set])
      (by
        intro l1 b l2 he hb ns hns
        exact hbody l1 b l2 (by rw [he, hassoc]) (List.mem_cons_of_mem _ hb) ns hns)
    refine ⟨ns', by simp [forEach, e, e'], by rw [hassoc]; exact h1, ?_⟩
    intro k hk
    rw [h2 k (fun b hb => hk b (List.mem_cons_of_mem _ hb)), Map.set, Function.update_of_ne]
    exact (hk a List.mem_cons_self).symm

/-! ## All tuples -/

/-- `a` is below one of the tuples. -/
def Tracked (ts : List (List Nat)) (a : List Nat) : Prop := ∃ t ∈ ts, Below a t

/-- Tuples of `n` small exponents without hash collisions. -/
structure Good (n : Nat) (ts : List (List Nat)) : Prop where
  len : ∀ t ∈ ts, t.length = n
  small : ∀ t ∈ ts, Small t
  inj : ∀ a b, Tracked ts a → Tracked ts b → hash (up a) = hash (up b) → a = b

theorem Good.tail {n : Nat} {t : List Nat} {ts : List (List Nat)} (h : Good n (t :: ts)) : Good n ts :=
  ⟨fun t ht => h.len t (List.mem_cons_of_mem _ ht), fun t ht => h.small t (List.mem_cons_of_mem _ ht),
   fun a b ⟨t, ht, hat⟩ ⟨u, hu, hbu⟩ => h.inj a b ⟨t, List.mem_cons_of_mem _ ht, hat⟩ ⟨u, List.mem_cons_of_mem _ hu, hbu⟩⟩

theorem Good.length {n : Nat} {ts : List (List Nat)} (h : Good n ts) {a : List Nat} (ha : Tracked ts a) : a.length = n := by
  obtain ⟨t, ht, hat⟩ := ha
  rw [hat.length, h.len t ht]

theorem Good.small' {n : Nat} {ts : List (List Nat)} (h : Good n ts) {a : List Nat} (ha : Tracked ts a) : Small a := by
  obtain ⟨t, ht, hat⟩ := ha
  exact (h.small t ht).below hat

theorem Tracked.below {ts : List (List Nat)} {a b : List Nat} (ha : Tracked ts a) (hb : Below b a) : Tracked ts b := by
  obtain ⟨t, ht, hat⟩ := ha
  exact ⟨t, ht, hb.trans hat⟩

/-- One tuple in `add`/`addDecay`. -/
theorem updateTuple_val (r : Rule K) (hr : r.fresh = false) {δ : List K} {n : Nat} {ts : List (List Nat)} (hg : Good n ts) (hδ : δ.length = n)
    {t : List Nat} (ht : t ∈ ts) (sums ns : Map K) :
    ∃ ns', updateTuple r true δ sums (up t) ns = .val (ns', []) ∧
      (∀ a, Below a t → ns' (hash (up a)) = some (total r δ (Map.get sums (hash (up a))) (fun c => Map.get sums (hash (up c))) a)) ∧
      (∀ k, (∀ a, Below a t → hash (up a) ≠ k) → ns' k = ns k) := by
  obtain ⟨l, hl, hp, hn, _⟩ := exists_visitedN true t
  have hm : ∀ {a}, a ∈ l ↔ Below a t := fun {a} => by rw [hp.mem_iff, mem_below]
  unfold updateTuple
  rw [iter_eq, hl, forEach_map]
  obtain ⟨ns', e, h1, h2⟩ := pass (body := fun a ns => iter (up a) false (visit r δ sums (up a)) (Map.set ns (hash (up a)) 0))
    (F := fun a => total r δ (Map.get sums (hash (up a))) (fun c => Map.get sums (hash (up c))) a) l [] ns
    (by
      intro a ha b hb h
      exact hg.inj a b ⟨t, ht, hm.1 ha⟩ ⟨t, ht, hm.1 hb⟩ h)
    (by simpa using hn) (by simp)
    (by
      intro l1 a l2 he ha ns _
      have hat : Tracked ts a := ⟨t, ht, hm.1 ha⟩
      rw [inner_val r (hg.small' hat) (by rw [hδ, hg.length hat]) sums ns (by simp [hr])]
      simp [hr])
  exact ⟨ns', e, fun a ha => h1 a (by simpa using hm.2 ha), fun k hk => h2 k (fun a ha => hk a (hm.1 ha))⟩

/-- All tuples in `add`/`addDecay`. -/
theorem updateAll_val (r : Rule K) (hr : r.fresh = false) {δ : List K} {n : Nat} {ts : List (List Nat)} (hg : Good n ts) (hδ : δ.length = n)
    (sums ns : Map K) :
    ∃ ns', updateAll r δ sums (ts.map up) ns = .val (ns', none) ∧
      (∀ a, Tracked ts a → ns' (hash (up a)) = some (total r δ (Map.get sums (hash (up a))) (fun c => Map.get sums (hash (up c))) a)) ∧
      (∀ k, (∀ a, Tracked ts a → hash (up a) ≠ k) → ns' k = ns k) := by
  suffices H : ∀ l : List (List Nat), (∀ t ∈ l, t ∈ ts) → ∀ ns, ∃ ns', updateAll r δ sums (l.map up) ns = .val (ns', none) ∧
      (∀ a, Tracked l a → ns' (hash (up a)) = some (total r δ (Map.get sums (hash (up a))) (fun c => Map.get sums (hash (up c))) a)) ∧
      (∀ k, (∀ a, Tracked l a → hash (up a) ≠ k) → ns' k = ns k) from H ts (fun _ h => h) ns
  intro l
  induction l with
  | nil => exact fun _ ns => ⟨ns, rfl, fun a ⟨t, ht, _⟩ => by simp at ht, fun _ _ => rfl⟩
  | cons t l ih =>
    intro hsub ns
    obtain ⟨ns1, e1, a1, b1⟩ := updateTuple_val r hr hg hδ (hsub t List.mem_cons_self) sums ns
    obtain ⟨ns2, e2, a2, b2⟩ := ih (fun t ht => hsub t (List.mem_cons_of_mem _ ht)) ns1
    refine ⟨ns2, by simp only [List.map_cons, updateAll, e1]; exact e2, ?_, ?_⟩
    · intro a ha
      by_cases hl : Tracked l a
      · exact a2 a hl
      · obtain ⟨u, hu, hau⟩ := ha
        rcases List.mem_cons.1 hu with rfl | hu
        · rw [b2 _ ?_, a1 a hau]
          rintro b ⟨v, hv, hbv⟩ hh
          have := hg.inj b a ⟨v, hsub v (List.mem_cons_of_mem _ hv), hbv⟩ ⟨u, hsub u List.mem_cons_self, hau⟩ hh
          exact hl (this ▸ ⟨v, hv, hbv⟩)
        · exact absurd ⟨u, hu, hau⟩ hl
    · intro k hk
      rw [b2 k (fun a ⟨t, ht, h⟩ => hk a ⟨t, List.mem_cons_of_mem _ ht, h⟩), b1 k (fun a h => hk a ⟨t, List.mem_cons_self, h⟩)]

/-- One tuple in `remove`: if the entries `S` come from `S'` by adding a point, the pass computes `S'`. -/
theorem removeTuple_val (r : Rule K) (hr : r.fresh = true) {δ : List K} {n : Nat} {ts : List (List Nat)} (hg : Good n ts) (hδ : δ.length = n)
    {t : List Nat} (ht : t ∈ ts) {S S' : List Nat → K} (hS : ∀ a, Tracked ts a → total r δ (S a) S' a = S' a) {sums : Map K} (ns : Map K)
    (hsums : ∀ a, Below a t → sums (hash (up a)) = some (S a)) :
    ∃ ns', updateTuple r false δ sums (up t) ns = .val (ns', []) ∧
      (∀ a, Below a t → ns' (hash (up a)) = some (S' a)) ∧
      (∀ k, (∀ a, Below a t → hash (up a) ≠ k) → ns' k = ns k) := by
  obtain ⟨l, hl, hp, hn, ho⟩ := exists_visitedN false t
  have hm : ∀ {a}, a ∈ l ↔ Below a t := fun {a} => by rw [hp.mem_iff, mem_below]
  unfold updateTuple
  rw [iter_eq, hl, forEach_map]
  obtain ⟨ns', e, h1, h2⟩ := pass (body := fun a ns => iter (up a) false (visit r δ sums (up a)) (Map.set ns (hash (up a)) 0))
    (F := S') l [] ns
    (by
      intro a ha b hb h
      exact hg.inj a b ⟨t, ht, hm.1 ha⟩ ⟨t, ht, hm.1 hb⟩ h)
    (by simpa using hn) (by simp)
    (by
      intro l1 a l2 he ha ns hns
      have hat : Tracked ts a := ⟨t, ht, hm.1 ha⟩
      rw [inner_val r (hg.small' hat) (by rw [hδ, hg.length hat]) sums ns
        (fun _ c hc hne h => hne (hg.inj c a (hat.below hc) hat h))]
      have hbase : Map.get sums (hash (up a)) = S a := by rw [Map.get, hsums a (hm.1 ha)]; rfl
      rw [hbase, total_congr (look' := S'), hS a hat]
      intro c hc hne _
      rw [hr, if_pos rfl]
      have hcl : c ∈ l1 := by
        have hcm : c ∈ l1 ++ a :: l2 := by rw [he]; simpa using hm.2 (hc.trans (hm.1 ha))
        rcases List.mem_append.1 hcm with h | h
        · exact h
        · rcases List.mem_cons.1 h with h | h
          · exact absurd h hne
          · simp only [Bool.false_eq_true, if_false] at ho
            rw [List.nil_append] at he
            rw [← he, List.pairwise_append] at ho
            exact absurd hc ((List.pairwise_cons.1 ho.2.1).1 c h)
      rw [Map.get, hns c hcl]; rfl)
  exact ⟨ns', e, fun a ha => h1 a (by simpa using hm.2 ha), fun k hk => h2 k (fun a ha => hk a (hm.1 ha))⟩

theorem copy_self {sums ns : Map K} (h : ∀ k, ns k = none → sums k = none) : Map.copy sums ns = ns := by
  funext k
  unfold Map.copy
  cases hk : ns k with
  | none => exact h k hk
  | some v => rfl

/-- No two of the tuples share a smaller tuple with two or more exponents: their minimum has sum at most one. -/
def NoOverlap (ts : List (List Nat)) : Prop := ts.Pairwise (fun t u => ∀ a, Below a t → Below a u → a.sum ≤ 1)

/-- All tuples in `remove`. -/
theorem removeAll_val (r : Rule K) (hr : r.fresh = true) {δ : List K} {n : Nat} {ts : List (List Nat)} (hg : Good n ts) (hδ : δ.length = n)
    (hov : NoOverlap ts) {S S' : List Nat → K} (hS : ∀ a, Tracked ts a → total r δ (S a) S' a = S' a)
    (h1 : ∀ a, Tracked ts a → a.sum ≤ 1 → S a = S' a) {sums : Map K} (hsums : ∀ a, Tracked ts a → sums (hash (up a)) = some (S a)) :
    ∃ m, removeAll r δ (ts.map up) sums sums = .val (m, m, none) ∧ (∀ a, Tracked ts a → m (hash (up a)) = some (S' a)) ∧
      (∀ k, (∀ a, Tracked ts a → hash (up a) ≠ k) → m k = sums k) := by
  suffices H : ∀ l : List (List Nat), (∀ t ∈ l, t ∈ ts) → NoOverlap l → ∀ sums : Map K, (∀ a, Tracked l a → sums (hash (up a)) = some (S a)) →
      ∃ m, removeAll r δ (l.map up) sums sums = .val (m, m, none) ∧ (∀ a, Tracked l a → m (hash (up a)) = some (S' a)) ∧
      (∀ k, (∀ a, Tracked l a → hash (up a) ≠ k) → m k = sums k) from H ts (fun _ h => h) hov sums hsums
  clear hsums sums
  intro l
  induction l with
  | nil => exact fun _ _ sums _ => ⟨sums, rfl, fun a ⟨t, ht, _⟩ => by simp at ht, fun _ _ => rfl⟩
  | cons t l ih =>
    intro hsub hov sums hsums
    unfold NoOverlap at hov
    rw [List.pairwise_cons] at hov
    obtain ⟨ns1, e1, a1, b1⟩ := removeTuple_val r hr hg hδ (hsub t List.mem_cons_self) hS sums
      (fun a ha => hsums a ⟨t, List.mem_cons_self, ha⟩)
    have hcopy : Map.copy sums ns1 = ns1 := by
      apply copy_self
      intro k hk
      by_cases hex : ∃ a, Below a t ∧ hash (up a) = k
      · obtain ⟨a, ha, rfl⟩ := hex
        rw [a1 a ha] at hk; cases hk
      · rw [← b1 k (fun a ha he => hex ⟨a, ha, he⟩), hk]
    obtain ⟨m, e2, a2, b2⟩ := ih (fun t ht => hsub t (List.mem_cons_of_mem _ ht)) hov.2 ns1
      (by
        rintro a ⟨u, hu, hau⟩
        by_cases hat : Below a t
        · rw [a1 a hat, h1 a ⟨t, hsub t List.mem_cons_self, hat⟩ (hov.1 u hu a hat hau)]
        · rw [b1 _ ?_]
          · exact hsums a ⟨u, List.mem_cons_of_mem _ hu, hau⟩
          · intro b hb hh
            have := hg.inj b a ⟨t, hsub t List.mem_cons_self, hb⟩ ⟨u, hsub u (List.mem_cons_of_mem _ hu), hau⟩ hh
            exact hat (this ▸ hb))
    refine ⟨m, by simp only [List.map_cons, removeAll, e1, hcopy]; exact e2, ?_, ?_⟩
    · intro a ha
      by_cases hl : Tracked l a
      · exact a2 a hl
      · obtain ⟨u, hu, hau⟩ := ha
        rcases List.mem_cons.1 hu with rfl | hu
        · rw [b2 _ ?_, a1 a hau]
          rintro b ⟨v, hv, hbv⟩ hh
          have := hg.inj b a ⟨v, hsub v (List.mem_cons_of_mem _ hv), hbv⟩ ⟨u, hsub u List.mem_cons_self, hau⟩ hh
          exact hl (this ▸ ⟨v, hv, hbv⟩)
        · exact absurd ⟨u, hu, hau⟩ hl
    · intro k hk
      rw [b2 k (fun a ⟨t, ht, h⟩ => hk a ⟨t, List.mem_cons_of_mem _ ht, h⟩), b1 k (fun a h => hk a ⟨t, List.mem_cons_self, h⟩)]

/-! ## The update formulas -/

/-- The rule adds a point of weight `w` to points of total weight `W`, whose weights are scaled by `s`, when the means move by `τ δ`. -/
structure Adds (r : Rule K) (s W τ w : K) : Prop where
  base : ∀ v, r.base v = s * v
  full : ∀ n dp, n ≠ 0 → r.full n dp = (s * W * (-τ) ^ n + w * (1 - τ) ^ n) * dp
  part : ∀ m n dp v, r.part m n dp v = s * m * τ ^ n * dp * v

theorem sub_move (x μ : List K) (τ : K) :
    List.zipWith (· - ·) x (List.zipWith (· + ·) μ ((List.zipWith (· - ·) x μ).map (τ * ·))) = (List.zipWith (· - ·) x μ).map ((1 - τ) * ·) := by
  induction x generalizing μ with
  | nil => simp
  | cons x xs ih =>
    cases μ with
    | nil => simp
    | cons m μ =>
      simp only [List.zipWith_cons_cons, List.map_cons, ih]
      congr 1; ring

/-- The new joint power sum. -/
theorem total_adds {r : Rule K} {s W τ w : K} (hr : Adds r s W τ w) {ps : List (K × List K)} (hW : (ps.map Prod.fst).sum = W)
    {μ x : List K} {a : List Nat} (hp : ∀ p ∈ ps, p.2.length = a.length) (hμ : μ.length = a.length) (hx : x.length = a.length) (ha : a.sum ≠ 0) :
    total r (List.zipWith (· - ·) x μ) (wj ps μ a) (wj ps μ) a =
      wj (ps.map (fun p => (s * p.1, p.2)) ++ [(w, x)]) (List.zipWith (· + ·) μ ((List.zipWith (· - ·) x μ).map (τ * ·))) a := by
  have hδ : (List.zipWith (· - ·) x μ).length = a.length := by simp [hx, hμ]
  rw [wj_append, wj_scale, wj_shift hp hμ (by simpa using hδ)]
  have hlast : wj [(w, x)] (List.zipWith (· + ·) μ ((List.zipWith (· - ·) x μ).map (τ * ·))) a =
      w * (1 - τ) ^ a.sum * mpow (List.zipWith (· - ·) x μ) a := by
    simp only [wj, List.map_cons, List.map_nil, List.sum_cons, List.sum_nil, add_zero]
    rw [sub_move, mpow_smul _ hδ, mul_assoc]
  rw [hlast, ← List.sum_map_mul_left,
    ← sum_ite_mem (nodup_below a) (mem_below.2 (Below.refl a)) (w * (1 - τ) ^ a.sum * mpow (List.zipWith (· - ·) x μ) a), ← List.sum_map_add]
  unfold total
  congr 1
  apply List.map_congr_left
  intro b hb
  rw [mem_below] at hb
  rw [mpow_smul _ (by rw [hδ, hb.length])]
  unfold term
  split_ifs with h0 he he
  · subst he; exact absurd h0 ha
  · have := hb.eq_zeros h0
    subst this
    rw [hr.base, mchoose_zeros, sum_zeros, mpow_zeros, msub_zeros]; simp
  · subst he
    rw [hr.full _ _ h0, mchoose_self, msub_self, wj_zeros, hW, neg_pow τ]; push_cast; ring
  · rw [hr.part]; ring

/-- `removeRule` undoes `addRule`. -/
theorem total_remove {r q : Rule K} (hb : ∀ v, r.base v = v) (hq : ∀ v, q.base v = v) (hf : ∀ n dp, n ≠ 0 → q.full n dp = -r.full n dp)
    (hp : ∀ m n dp v, q.part m n dp v = -r.part m n dp v) {δ : List K} {S S' : List Nat → K} {a : List Nat}
    (hS : total r δ (S' a) S' a = S a) : total q δ (S a) S' a = S' a := by
  have key : total q δ (S a) S' a + total r δ (S' a) S' a = S a + S' a := by
    unfold total
    rw [← List.sum_map_add, ← sum_ite_mem (nodup_below a) (mem_below.2 (zeros_below a)) (S a + S' a)]
    congr 1
    apply List.map_congr_left
    intro b hbm
    rw [mem_below] at hbm
    unfold term
    split_ifs with h0 hz he hz hz
    · rw [hb, hq]
    · exact absurd (hbm.eq_zeros h0) hz
    · subst hz; exact absurd (sum_zeros a) h0
    · rw [hf _ _ h0]; ring
    · subst hz; exact absurd (sum_zeros a) h0
    · rw [hp]; ring
  rw [hS] at key
  linear_combination key

theorem addRule_adds {N : K} (hN : N ≠ 0) : Adds (addRule N) 1 (N - 1) (1 / N) 1 where
  base v := by simp [addRule]
  full n dp hn := by
    obtain ⟨n, rfl⟩ := Nat.exists_eq_succ_of_ne_zero hn
    simp only [addRule, sign_eq, Nat.succ_eq_add_one, Nat.add_sub_cancel]
    have h1 : 1 - 1 / N = (N - 1) / N := by field_simp
    rw [h1, div_pow, neg_pow (1 / N), div_pow, one_pow, pow_succ (N - 1)]
    push_cast
    have : N ^ (n + 1) ≠ 0 := pow_ne_zero _ hN
    field_simp
    ring
  part m n dp v := by
    simp only [addRule, div_pow, one_pow]; ring

theorem decayRule_adds (d : K) : Adds (decayRule d) (1 - d) 1 d d where
  base v := rfl
  full n dp _ := by simp only [decayRule]; ring
  part m n dp v := by simp only [decayRule]; ring

end Verif.Joint
