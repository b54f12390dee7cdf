import Verif.Model.Heap
import Mathlib.Data.List.Nodup
import Mathlib.Data.List.Perm.Basic
import Mathlib.Tactic.SplitIfs
import Mathlib.Tactic.Set

/-! # `container/heap` on the item heap: heap order, item bookkeeping, contents -/

set_option linter.unusedSectionVars false
set_option linter.unusedSimpArgs false

namespace Verif.Heap
open Verif

variable {F : Type}

/-- What the comparator needs: a strict weak order. -/
structure SWO (cmp : F → F → Bool) : Prop where
  asym : ∀ {a b}, cmp a b = true → cmp b a = false
  ntrans : ∀ {a b c}, cmp a b = false → cmp b c = false → cmp a c = false

theorem SWO.irrefl {cmp : F → F → Bool} (h : SWO cmp) (a : F) : cmp a a = false := by
  by_contra c
  have := h.asym (by simpa using c : cmp a a = true)
  exact c this

/-- The value at position `k`. -/
def pv (m : Mem F) (h : Heap F) (k : Nat) : F := m.val (h.items.getD k 0)

/-- Every stored item knows its position and its heap. -/
def Book (m : Mem F) (h : Heap F) : Prop :=
  ∀ (k a : Nat), h.items[k]? = some a → m.idx a = k ∧ m.hid a = h.id

/-- A step that only rearranges the items of `h`. -/
structure Sim (m : Mem F) (h : Heap F) (m' : Mem F) (h' : Heap F) : Prop where
  val : m'.val = m.val
  hid : m'.hid = m.hid
  id : h'.id = h.id
  cmp : h'.cmp = h.cmp
  perm : h'.items.Perm h.items
  idx : ∀ a, a ∉ h.items → m'.idx a = m.idx a
  book : h.items.Nodup → Book m h → Book m' h'

theorem Sim.refl (m : Mem F) (h : Heap F) : Sim m h m h :=
  ⟨rfl, rfl, rfl, rfl, List.Perm.refl _, fun _ _ => rfl, fun _ b => b⟩

theorem Sim.trans {m m1 m2 : Mem F} {h h1 h2 : Heap F} (a : Sim m h m1 h1) (b : Sim m1 h1 m2 h2) : Sim m h m2 h2 where
  val := b.val.trans a.val
  hid := b.hid.trans a.hid
  id := b.id.trans a.id
  cmp := b.cmp.trans a.cmp
  perm := b.perm.trans a.perm
  idx x hx := (b.idx x (fun c => hx (a.perm.mem_iff.1 c))).trans (a.idx x hx)
  book n bk := b.book (a.perm.nodup_iff.2 n) (a.book n bk)

theorem Sim.len {m m1 : Mem F} {h h1 : Heap F} (a : Sim m h m1 h1) : h1.items.length = h.items.length := a.perm.length_eq

/-- Exchange of two positions. -/
def sw (i j k : Nat) : Nat := if k = i then j else if k = j then i else k

theorem less_eq (m : Mem F) (h : Heap F) {i j : Nat} (hi : i < h.items.length) (hj : j < h.items.length) :
    less m h i j = .val (h.cmp (pv m h i) (pv m h j)) := by
  simp [less, pv, List.getElem?_eq_getElem hi, List.getElem?_eq_getElem hj, List.getD_eq_getElem?_getD]

theorem set_set_perm {l : List Nat} {i j : Nat} (hi : i < l.length) (hj : j < l.length) :
    ((l.set i l[j]).set j l[i]).Perm l := by
  rw [List.perm_iff_count]
  intro a
  rw [List.count_set (by simpa using hj), List.count_set hi]
  have h1 : (l.set i l[j])[j]'(by simpa using hj) = l[j] := by
    by_cases hij : i = j
    · subst hij; simp
    · rw [List.getElem_set_ne hij]
  rw [h1]
  have c1 : l[i] = a → 0 < l.count a := fun h => List.count_pos_iff.2 (h ▸ List.getElem_mem hi)
  have c2 : l[j] = a → 0 < l.count a := fun h => List.count_pos_iff.2 (h ▸ List.getElem_mem hj)
  by_cases e1 : l[i] = a <;> by_cases e2 : l[j] = a <;> simp [e1, e2] <;> (have := c1 e1; omega)

theorem swap_spec (m : Mem F) (h : Heap F) {i j : Nat} (hi : i < h.items.length) (hj : j < h.items.length) :
    ∃ m' h', swap m h i j = .val (m', h') ∧ Sim m h m' h' ∧ (∀ k, pv m' h' k = pv m h (sw i j k)) ∧
      ∀ k, k ≠ i → k ≠ j → h'.items.getD k 0 = h.items.getD k 0 := by
  have ei : h.items[i]? = some h.items[i] := List.getElem?_eq_getElem hi
  have ej : h.items[j]? = some h.items[j] := List.getElem?_eq_getElem hj
  refine ⟨{ m with idx := upd (upd m.idx h.items[j] i) h.items[i] j },
    { h with items := (h.items.set i h.items[j]).set j h.items[i] }, by simp only [swap, ei, ej],
    ⟨rfl, rfl, rfl, rfl, set_set_perm hi hj, ?_, ?_⟩, ?_, ?_⟩
  · intro a ha
    have h1 : a ≠ h.items[i] := fun c => ha (c ▸ List.getElem_mem hi)
    have h2 : a ≠ h.items[j] := fun c => ha (c ▸ List.getElem_mem hj)
    simp [upd, h1, h2]
  · intro nd bk k a hk
    simp only [List.getElem?_set, List.length_set] at hk
    refine ⟨?_, ?_⟩
    · show upd (upd m.idx h.items[j] i) h.items[i] j a = k
      by_cases hkj : j = k
      · subst hkj
        rw [if_pos rfl, if_pos hj] at hk
        cases hk
        simp [upd]
      · rw [if_neg hkj] at hk
        by_cases hki : i = k
        · subst hki
          rw [if_pos rfl, if_pos hi] at hk
          cases hk
          have : h.items[j] ≠ h.items[i] := fun c => hkj ((List.Nodup.getElem_inj_iff nd).1 c)
          simp [upd, this]
        · rw [if_neg hki] at hk
          have hkl : k < h.items.length := by
            by_contra c
            rw [List.getElem?_eq_none (by omega)] at hk; cases hk
          rw [List.getElem?_eq_getElem hkl] at hk
          have e : h.items[k] = a := by simpa using hk
          have n1 : a ≠ h.items[i] := by rw [← e]; exact fun c => hki ((List.Nodup.getElem_inj_iff nd).1 c).symm
          have n2 : a ≠ h.items[j] := by rw [← e]; exact fun c => hkj ((List.Nodup.getElem_inj_iff nd).1 c).symm
          simp only [upd, if_neg n1, if_neg n2]
          exact (bk k a (by rw [List.getElem?_eq_getElem hkl, e])).1
    · show m.hid a = h.id
      have : a ∈ h.items := by
        have : a ∈ (h.items.set i h.items[j]).set j h.items[i] := by
          apply List.mem_of_getElem? (i := k)
          simpa only [List.getElem?_set, List.length_set] using hk
        exact (set_set_perm hi hj).mem_iff.1 this
      obtain ⟨k', hk', e⟩ := List.getElem_of_mem this
      exact (bk k' a (by rw [List.getElem?_eq_getElem hk', e])).2
  · intro k
    simp only [pv, sw, List.getD_eq_getElem?_getD, List.getElem?_set, List.length_set]
    by_cases hkj : j = k
    · subst hkj
      rw [if_pos rfl, if_pos hj]
      by_cases hij : j = i
      · subst hij; simp [hj]
      · simp [hij, hi]
    · by_cases hki : i = k
      · subst hki; simp [hkj, hi, hj]
      · simp [hkj, hki, Ne.symm hkj, Ne.symm hki]
  · intro k a b
    simp [List.getD_eq_getElem?_getD, List.getElem?_set, Ne.symm a, Ne.symm b]

/-- The heap order on the first `n` positions, for the edges whose parent is at least `lo`. -/
def HP (cmp : F → F → Bool) (p : Nat → F) (lo n : Nat) : Prop :=
  ∀ k, 0 < k → k < n → lo ≤ (k - 1) / 2 → cmp (p k) (p ((k - 1) / 2)) = false

theorem up_spec {cmp : F → F → Bool} (hc : SWO cmp) (n : Nat) : ∀ (fuel : Nat) (m : Mem F) (h : Heap F) (j : Nat), h.cmp = cmp → j < fuel →
    j < n → n ≤ h.items.length →
    (∀ k, 0 < k → k < n → k ≠ j → cmp (pv m h k) (pv m h ((k - 1) / 2)) = false) →
    (∀ k, 0 < k → k < n → (k - 1) / 2 = j → 0 < j → cmp (pv m h k) (pv m h ((j - 1) / 2)) = false) →
    ∃ m' h', up fuel m h j = .val (m', h') ∧ Sim m h m' h' ∧ HP cmp (pv m' h') 0 n ∧
      ∀ k, n ≤ k → h'.items.getD k 0 = h.items.getD k 0 := by
  intro fuel
  induction fuel with
  | zero => intro m h j _ hf; omega
  | succ fuel ih =>
    intro m h j hcmp hf hj hn' h1 h2
    rw [up]
    by_cases hij : (j - 1) / 2 = j
    · have : j = 0 := by omega
      subst this
      exact ⟨m, h, if_pos hij, Sim.refl m h, fun k hk hn _ => h1 k hk hn (by omega), fun _ _ => rfl⟩
    · have hj0 : 0 < j := by omega
      have hlt : (j - 1) / 2 < j := by omega
      simp only [if_neg hij]
      set i := (j - 1) / 2 with hi
      rw [less_eq m h (by omega) (by omega), hcmp, Go.val_bind]
      by_cases hb : cmp (pv m h j) (pv m h i) = true
      · rw [if_pos hb]
        obtain ⟨m1, h1', e, s, p1, g1⟩ := swap_spec m h (i := i) (j := j) (by omega) (by omega)
        have pi : pv m1 h1' i = pv m h j := by rw [p1]; simp [sw]
        have pj : pv m1 h1' j = pv m h i := by rw [p1]; simp [sw, show ¬ j = i by omega]
        have po : ∀ k, k ≠ i → k ≠ j → pv m1 h1' k = pv m h k := by
          intro k a b; rw [p1]; simp [sw, a, b]
        have hasym := hc.asym hb
        rw [e, Go.val_bind]
        obtain ⟨m2, h2', e2, s2, hp, g2⟩ := ih m1 h1' i (s.cmp.trans hcmp) (by omega) (by omega) (by rw [s.len]; omega)
            (by
              intro k hk hn hki
              by_cases hkj : k = j
              · subst hkj
                rw [pj, ← hi, pi]; exact hasym
              · rw [po k hki hkj]
                by_cases hpi : (k - 1) / 2 = i
                · rw [hpi, pi]
                  have := h1 k hk hn hkj
                  rw [hpi] at this
                  exact hc.ntrans this hasym
                · by_cases hpj : (k - 1) / 2 = j
                  · rw [hpj, pj]; exact h2 k hk hn hpj hj0
                  · rw [po _ hpi hpj]; exact h1 k hk hn hkj)
            (by
              intro k hk hn hpi hi0
              have hpp : (i - 1) / 2 < i := by omega
              rw [po ((i - 1) / 2) (by omega) (by omega)]
              have hgi := h1 i hi0 (by omega) (by omega)
              by_cases hkj : k = j
              · subst hkj; rw [pj]; exact hgi
              · rw [po k (by omega) hkj]
                have := h1 k hk hn hkj
                rw [hpi] at this
                exact hc.ntrans this hgi)
        exact ⟨m2, h2', e2, s.trans s2, hp, fun k hk => by rw [g2 k hk, g1 k (by omega) (by omega)]⟩
      · rw [if_neg hb]
        refine ⟨m, h, rfl, Sim.refl m h, fun k hk hn _ => ?_, fun _ _ => rfl⟩
        by_cases hkj : k = j
        · subst hkj; simpa using hb
        · exact h1 k hk hn hkj

theorem down_spec {cmp : F → F → Bool} (hc : SWO cmp) (lo n : Nat) : ∀ (fuel : Nat) (m : Mem F) (h : Heap F) (i : Nat), h.cmp = cmp →
    n ≤ h.items.length → 0 < fuel → n < fuel + i → i < h.items.length → lo ≤ i →
    (∀ k, 0 < k → k < n → lo ≤ (k - 1) / 2 → k ≠ i → (k - 1) / 2 ≠ i → cmp (pv m h k) (pv m h ((k - 1) / 2)) = false) →
    (∀ k, 0 < k → k < n → (k - 1) / 2 = i → 0 < i → lo ≤ (i - 1) / 2 → cmp (pv m h k) (pv m h ((i - 1) / 2)) = false) →
    ∃ m' h' i', down fuel m h i n = .val (m', h', i') ∧ Sim m h m' h' ∧ (∀ k, n ≤ k → k ≠ i → h'.items.getD k 0 = h.items.getD k 0) ∧
      ((i' = i ∧ m' = m ∧ h' = h ∧ ∀ k, 0 < k → k < n → (k - 1) / 2 = i → cmp (pv m h k) (pv m h i) = false) ∨
        (i < i' ∧ HP cmp (pv m' h') lo n)) := by
  intro fuel
  induction fuel with
  | zero =>
    intro m h i hcmp hn hf; omega
  | succ fuel ih =>
    intro m h i hcmp hn _ hf hi hlo h1 h2
    rw [down]
    by_cases hstop : 2 * i + 1 ≥ n
    · refine ⟨m, h, i, if_pos hstop, Sim.refl m h, fun _ _ _ => rfl, Or.inl ⟨rfl, rfl, rfl, fun k hk hkn hp => by omega⟩⟩
    · simp only [if_neg hstop]
      -- the smaller child
      obtain ⟨j, ej, hjn, hji, hmin⟩ : ∃ j, ((if 2 * i + 1 + 1 < n then do
          let b ← less m h (2 * i + 1 + 1) (2 * i + 1)
          pure (if b then 2 * i + 1 + 1 else 2 * i + 1)
        else pure (2 * i + 1) : Go Nat) = .val j) ∧ j < n ∧ (j = 2 * i + 1 ∨ j = 2 * i + 2) ∧
        ∀ k, 0 < k → k < n → (k - 1) / 2 = i → cmp (pv m h k) (pv m h j) = false := by
        by_cases hs : 2 * i + 1 + 1 < n
        · rw [if_pos hs, less_eq m h (by omega) (by omega), hcmp, Go.val_bind]
          by_cases hb : cmp (pv m h (2 * i + 1 + 1)) (pv m h (2 * i + 1)) = true
          · refine ⟨2 * i + 1 + 1, by rw [if_pos hb]; rfl, hs, Or.inr rfl, ?_⟩
            intro k hk hkn hp
            have : k = 2 * i + 1 ∨ k = 2 * i + 1 + 1 := by omega
            rcases this with rfl | rfl
            · exact hc.asym hb
            · exact hc.irrefl _
          · refine ⟨2 * i + 1, by rw [if_neg hb]; rfl, by omega, Or.inl rfl, ?_⟩
            intro k hk hkn hp
            have : k = 2 * i + 1 ∨ k = 2 * i + 1 + 1 := by omega
            rcases this with rfl | rfl
            · exact hc.irrefl _
            · simpa using hb
        · refine ⟨2 * i + 1, if_neg hs, by omega, Or.inl rfl, ?_⟩
          intro k hk hkn hp
          have : k = 2 * i + 1 := by omega
          subst this; exact hc.irrefl _
      rw [ej, Go.val_bind, less_eq m h (by omega) hi, hcmp, Go.val_bind]
      have hpj : (j - 1) / 2 = i := by omega
      by_cases hb : cmp (pv m h j) (pv m h i) = true
      · rw [if_pos hb]
        obtain ⟨m1, h1', e, s, p1, g1⟩ := swap_spec m h (i := i) (j := j) hi (by omega)
        have pi : pv m1 h1' i = pv m h j := by rw [p1]; simp [sw]
        have pj : pv m1 h1' j = pv m h i := by rw [p1]; simp [sw, show ¬ j = i by omega]
        have po : ∀ k, k ≠ i → k ≠ j → pv m1 h1' k = pv m h k := by
          intro k a b; rw [p1]; simp [sw, a, b]
        rw [e, Go.val_bind]
        obtain ⟨m2, h2', i', e2, s2, po2, hr⟩ := ih m1 h1' j (s.cmp.trans hcmp) (by rw [s.len]; omega) (by omega) (by omega)
          (by rw [s.len]; omega) (by omega)
            (by
              intro k hk hkn hlk hkj hpk
              by_cases hki : k = i
              · subst hki
                have : (k - 1) / 2 ≠ k := by omega
                rw [pi, po _ this (by omega)]
                exact h2 j (by omega) hjn hpj hk hlk
              · by_cases hpi : (k - 1) / 2 = i
                · rw [hpi, pi, po k hki hkj]
                  exact hmin k hk hkn hpi
                · rw [po k hki hkj, po _ hpi hpk]
                  exact h1 k hk hkn hlk hki hpi)
            (by
              intro k hk hkn hpk _ _
              rw [hpj, pi, po k (by omega) (by omega)]
              have := h1 k hk hkn (by omega) (by omega) (by omega)
              rw [hpk] at this; exact this)
        refine ⟨m2, h2', i', e2, s.trans s2, fun k hk hki => ?_, Or.inr ?_⟩
        · rw [po2 k hk (by omega), g1 k hki (by omega)]
        · rcases hr with ⟨rfl, rfl, rfl, hch⟩ | ⟨hlt, hp⟩
          · refine ⟨by omega, fun k hk hkn hlk => ?_⟩
            by_cases hkj : k = i'
            · subst hkj
              rw [hpj, pj, pi]; exact hc.asym hb
            · by_cases hpk : (k - 1) / 2 = i'
              · rw [hpk]; exact hch k hk hkn hpk
              · by_cases hki : k = i
                · subst hki
                  have : (k - 1) / 2 ≠ k := by omega
                  rw [pi, po _ this (by omega)]
                  exact h2 i' (by omega) hjn hpj hk hlk
                · by_cases hpi : (k - 1) / 2 = i
                  · rw [hpi, pi, po k hki hkj]
                    exact hmin k hk hkn hpi
                  · rw [po k hki hkj, po _ hpi hpk]
                    exact h1 k hk hkn hlk hki hpi
          · exact ⟨by omega, hp⟩
      · rw [if_neg hb]
        refine ⟨m, h, i, rfl, Sim.refl m h, fun _ _ _ => rfl, Or.inl ⟨rfl, rfl, rfl, fun k hk hkn hp => ?_⟩⟩
        exact hc.ntrans (hmin k hk hkn hp) (by simpa using hb)

end Verif.Heap
