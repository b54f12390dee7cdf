import Verif.Proofs.Heap
import Mathlib.Order.Basic
import Mathlib.Algebra.Order.Group.Nat
import Mathlib.Algebra.Order.Monoid.Unbundled.Basic

/-! # The heap operations used by `HeapMedian` -/

set_option linter.unusedSectionVars false
set_option linter.unusedSimpArgs false

namespace Verif.Heap
open Verif

variable {F : Type}

/-- A well-formed heap. -/
structure WF (m : Mem F) (h : Heap F) : Prop where
  nodup : h.items.Nodup
  book : Book m h
  heap : HP h.cmp (pv m h) 0 h.items.length

theorem getD_mem {l : List Nat} {k : Nat} (h : k < l.length) : l.getD k 0 ∈ l := by
  rw [List.getD_eq_getElem?_getD, List.getElem?_eq_getElem h]; exact List.getElem_mem h

theorem mem_getD {l : List Nat} {a : Nat} (h : a ∈ l) : ∃ k, k < l.length ∧ l.getD k 0 = a := by
  obtain ⟨k, hk, e⟩ := List.getElem_of_mem h
  exact ⟨k, hk, by rw [List.getD_eq_getElem?_getD, List.getElem?_eq_getElem hk]; exact e⟩

theorem WF.frame {m m' : Mem F} {h : Heap F} (w : WF m h) (hv : ∀ a ∈ h.items, m'.val a = m.val a)
    (hh : ∀ a ∈ h.items, m'.hid a = m.hid a) (hi : ∀ a ∈ h.items, m'.idx a = m.idx a) : WF m' h where
  nodup := w.nodup
  book k a hk := by
    have := List.mem_of_getElem? hk
    rw [hi a this, hh a this]; exact w.book k a hk
  heap k hk hn hl := by
    have h1 : pv m' h k = pv m h k := hv _ (getD_mem hn)
    have h2 : pv m' h ((k - 1) / 2) = pv m h ((k - 1) / 2) := hv _ (getD_mem (by omega))
    rw [h1, h2]; exact w.heap k hk hn hl

theorem WF.idx_of {m : Mem F} {h : Heap F} (w : WF m h) {a : Nat} (ha : a ∈ h.items) :
    ∃ k, k < h.items.length ∧ h.items.getD k 0 = a ∧ m.idx a = k ∧ m.hid a = h.id := by
  obtain ⟨k, hk, e⟩ := List.getElem_of_mem ha
  have := w.book k a (by rw [List.getElem?_eq_getElem hk, e])
  exact ⟨k, hk, by rw [List.getD_eq_getElem?_getD, List.getElem?_eq_getElem hk]; exact e, this.1, this.2⟩

theorem top_pos {cmp : F → F → Bool} (hc : SWO cmp) {p : Nat → F} {n : Nat} (h : HP cmp p 0 n) :
    ∀ k, k < n → cmp (p k) (p 0) = false := by
  intro k
  induction k using Nat.strongRecOn with
  | _ k ih =>
    intro hk
    by_cases h0 : k = 0
    · subst h0; exact hc.irrefl _
    · exact hc.ntrans (h k (by omega) hk (Nat.zero_le _)) (ih _ (by omega) (by omega))

/-- `Peek` returns the value of an item that no other precedes. -/
theorem peek_spec {m : Mem F} {h : Heap F} (hc : SWO h.cmp) (w : WF m h) (hne : h.items ≠ []) :
    ∃ a ∈ h.items, peek m h = .val (m.val a) ∧ ∀ b ∈ h.items, h.cmp (m.val b) (m.val a) = false := by
  rcases e : h.items with _ | ⟨a, l⟩
  · exact absurd e hne
  · refine ⟨a, by simp, by simp [peek, e], fun b hb => ?_⟩
    rw [← e] at hb
    obtain ⟨k, hk, rfl⟩ := mem_getD hb
    have := top_pos hc w.heap k hk
    have h0 : h.items.getD 0 0 = a := by rw [e]; rfl
    rw [pv, pv, h0] at this; exact this

theorem push_spec {m : Mem F} {h : Heap F} (hc : SWO h.cmp) (w : WF m h) {a : Nat} (ha : a ∉ h.items) :
    ∃ m' h', push m h a = .val (m', h') ∧ WF m' h' ∧ h'.id = h.id ∧ h'.cmp = h.cmp ∧ h'.items.Perm (a :: h.items) ∧
      m'.val = m.val ∧ (∀ b, b ≠ a → m'.hid b = m.hid b) ∧ ∀ b, b ≠ a → b ∉ h.items → m'.idx b = m.idx b := by
  set m1 : Mem F := { m with hid := upd m.hid a h.id, idx := upd m.idx a h.items.length } with hm1
  set h1 : Heap F := { h with items := h.items ++ [a] } with hh1
  have hlen : h1.items.length = h.items.length + 1 := by simp [hh1]
  have hpo : ∀ k, k < h.items.length → pv m1 h1 k = pv m h k := by
    intro k hk
    simp only [pv, hh1, hm1, List.getD_eq_getElem?_getD]
    rw [List.getElem?_append_left hk]
  have hnd : h1.items.Nodup := by
    simp only [hh1]
    rw [List.nodup_append]
    exact ⟨w.nodup, by simp, by intro x hx y hy; simp at hy; subst hy; exact fun c => ha (c ▸ hx)⟩
  have hbk : Book m1 h1 := by
    intro k b hk
    simp only [hh1] at hk
    by_cases hkl : k < h.items.length
    · rw [List.getElem?_append_left hkl] at hk
      have hne : b ≠ a := fun c => ha (c ▸ List.mem_of_getElem? hk)
      simp only [hm1, hh1, upd, if_neg hne]
      exact w.book k b hk
    · rw [List.getElem?_append_right (by omega)] at hk
      have hk0 : k - h.items.length = 0 := by
        by_contra c
        rw [List.getElem?_eq_none (by simp; omega)] at hk; cases hk
      rw [hk0] at hk
      simp at hk
      subst hk
      have : k = h.items.length := by omega
      simp [hm1, hh1, upd, this]
  obtain ⟨m', h', e, s, hp, -⟩ := up_spec (cmp := h.cmp) hc h1.items.length (h1.len + 1) m1 h1 (h1.len - 1) rfl (by omega)
    (by simp [Heap.len, hlen]) (Nat.le_refl _)
    (by
      intro k hk hn hne
      simp only [Heap.len, hlen] at hne hn
      rw [hpo k (by omega), hpo _ (by omega)]
      exact w.heap k hk (by omega) (Nat.zero_le _))
    (by
      intro k hk hn hp h0
      simp only [Heap.len, hlen] at hp hn
      omega)
  refine ⟨m', h', e, ⟨s.perm.nodup_iff.2 hnd, s.book hnd hbk, ?_⟩, s.id, s.cmp, s.perm.trans ?_, s.val, ?_, ?_⟩
  · have e1 : h'.cmp = h.cmp := s.cmp
    rw [s.len, e1]; exact hp
  · simp [hh1]
  · intro b hb
    rw [s.hid]; simp [hm1, upd, hb]
  · intro b hb hbi
    rw [s.idx b (by simp [hh1, hb, hbi])]; simp [hm1, upd, hb]

/-- Dropping the last item of a heap whose other positions are in order. -/
theorem rawPop_spec {m : Mem F} {h : Heap F} (hnd : h.items.Nodup) (hbk : Book m h) (hne : h.items ≠ [])
    (hp : HP h.cmp (pv m h) 0 (h.items.length - 1)) :
    ∃ m' h', rawPop m h = .val (h.items.getD (h.items.length - 1) 0, m', h') ∧ WF m' h' ∧ h'.id = h.id ∧ h'.cmp = h.cmp ∧
      (h.items.getD (h.items.length - 1) 0 :: h'.items).Perm h.items ∧
      m'.val = m.val ∧ m'.hid = m.hid ∧ ∀ b, b ∉ h.items → m'.idx b = m.idx b := by
  obtain ⟨l, a, e⟩ : ∃ l a, h.items = l ++ [a] := ⟨h.items.dropLast, h.items.getLast hne, (List.dropLast_append_getLast hne).symm⟩
  have hg : h.items.getD (h.items.length - 1) 0 = a := by
    rw [e, List.getD_eq_getElem?_getD]; simp
  have hal : a ∉ l := by
    rw [e, List.nodup_append] at hnd
    exact fun c => hnd.2.2 a c a (by simp) rfl
  rw [hg]
  have hpl : ∀ k, k < l.length → pv { m with idx := upd m.idx a (-1) } { h with items := l } k = pv m h k := by
    intro k hk
    simp only [pv, List.getD_eq_getElem?_getD, e]
    rw [List.getElem?_append_left hk]
  refine ⟨{ m with idx := upd m.idx a (-1) }, { h with items := l }, ?_, ⟨?_, ?_, ?_⟩, rfl, rfl, ?_, rfl, rfl, ?_⟩
  · simp [rawPop, e]
  · rw [e, List.nodup_append] at hnd; exact hnd.1
  · intro k b hk
    have hb : b ≠ a := fun c => hal (c ▸ List.mem_of_getElem? hk)
    have hkl : k < l.length := by
      by_contra c
      rw [List.getElem?_eq_none (by simpa using c)] at hk; cases hk
    simp only [upd, if_neg hb]
    exact hbk k b (by rw [e, List.getElem?_append_left hkl]; exact hk)
  · intro k hk hn hl
    simp only at hn
    rw [hpl k hn, hpl _ (by omega)]
    exact hp k hk (by rw [e]; simp; omega) hl
  · rw [e]
    exact (List.perm_append_singleton a l).symm
  · intro b hb
    have : b ≠ a := fun c => hb (by rw [e, c]; simp)
    simp [upd, this]

theorem pop_spec {m : Mem F} {h : Heap F} (hc : SWO h.cmp) (w : WF m h) (hne : h.items ≠ []) :
    ∃ a m' h', pop m h = .val (a, m', h') ∧ WF m' h' ∧ h'.id = h.id ∧ h'.cmp = h.cmp ∧ (a :: h'.items).Perm h.items ∧
      m'.val = m.val ∧ m'.hid = m.hid ∧ (∀ b, b ∉ h.items → m'.idx b = m.idx b) ∧
      ∀ b ∈ h.items, h.cmp (m.val b) (m.val a) = false := by
  have hpos : 0 < h.items.length := List.length_pos_iff.2 hne
  obtain ⟨m1, h1, e1, s1, p1, ga1⟩ := swap_spec m h (i := 0) (j := h.items.length - 1) hpos (by omega)
  have hasy := s1.cmp
  have po : ∀ k, k ≠ 0 → k ≠ h.items.length - 1 → pv m1 h1 k = pv m h k := by
    intro k a b; rw [p1]; simp [sw, a, b]
  have plast : pv m1 h1 (h.items.length - 1) = pv m h 0 := by
    rw [p1]; unfold sw
    by_cases c : h.items.length - 1 = 0
    · simp [c]
    · simp [c]
  obtain ⟨m2, h2, i', e2, s2, po2, hr⟩ := down_spec (cmp := h.cmp) hc 0 (h.items.length - 1) (h.items.length - 1 + 1) m1 h1 0
    s1.cmp (by rw [s1.len]; omega) (by omega) (by omega) (by rw [s1.len]; omega) (Nat.zero_le _)
    (by
      intro k hk hn _ hki hpi
      rw [po k (by omega) (by omega), po _ (by omega) (by omega)]
      exact w.heap k hk (by omega) (Nat.zero_le _))
    (by intro k _ _ _ h0; omega)
  have hlen2 : h2.items.length = h.items.length := by rw [s2.len, s1.len]
  have hp2 : HP h2.cmp (pv m2 h2) 0 (h2.items.length - 1) := by
    rw [s2.cmp, s1.cmp, hlen2]
    rcases hr with ⟨-, rfl, rfl, hch⟩ | ⟨-, hp⟩
    · intro k hk hn _
      by_cases hpk : (k - 1) / 2 = 0
      · rw [hpk]; exact hch k hk hn hpk
      · rw [po k (by omega) (by omega), po _ hpk (by omega)]
        exact w.heap k hk (by omega) (Nat.zero_le _)
    · exact hp
  have hnd1 := s1.perm.nodup_iff.2 w.nodup
  have hbk1 := s1.book w.nodup w.book
  obtain ⟨m3, h3, e3, w3, q1, q2, q3, q4, q5, q6⟩ := rawPop_spec (s2.perm.nodup_iff.2 hnd1) (s2.book hnd1 hbk1)
    (by intro c; rw [c] at hlen2; simp at hlen2; omega) hp2
  have hlastv : m.val (h2.items.getD (h2.items.length - 1) 0) = pv m h 0 := by
    have : m.val (h2.items.getD (h2.items.length - 1) 0) = pv m2 h2 (h2.items.length - 1) := by
      rw [pv, s2.val, s1.val]
    rw [this, hlen2]
    by_cases c : h.items.length - 1 = 0
    · rcases hr with ⟨-, rfl, rfl, -⟩ | ⟨hlt, -⟩
      · exact plast
      · -- only one item: `down` cannot move
        have hdown : down (h.items.length - 1 + 1) m1 h1 0 (h.items.length - 1) = .val (m1, h1, 0) := by
          rw [down]; simp [c]
        rw [hdown] at e2; cases e2; omega
    · rw [pv, po2 _ (Nat.le_refl _) c, s2.val]; exact plast
  refine ⟨_, m3, h3, ?_, w3, q1.trans (s2.id.trans s1.id), q2.trans (s2.cmp.trans s1.cmp), q3.trans (s2.perm.trans s1.perm),
    q4.trans (s2.val.trans s1.val), q5.trans (s2.hid.trans s1.hid), ?_, ?_⟩
  · simp only [pop, Heap.len, show ¬ h.items.length = 0 by omega, if_false, e1, Go.val_bind, e2]
    exact e3
  · intro b hb
    have hb1 : b ∉ h1.items := fun c => hb (s1.perm.mem_iff.1 c)
    rw [q6 b (fun c => hb1 (s2.perm.mem_iff.1 c)), s2.idx b hb1, s1.idx b hb]
  · intro b hb
    rw [hlastv]
    obtain ⟨k, hk, rfl⟩ := mem_getD hb
    exact top_pos hc w.heap k hk

/-- The repair step of `Fix` and `Remove`: sift down, then up if nothing moved. -/
theorem sift_spec {cmp : F → F → Bool} (hc : SWO cmp) {m : Mem F} {h : Heap F} (hcmp : h.cmp = cmp) {i : Nat}
    (hi : i < h.items.length)
    (h1 : ∀ k, 0 < k → k < h.items.length → k ≠ i → (k - 1) / 2 ≠ i → cmp (pv m h k) (pv m h ((k - 1) / 2)) = false)
    (h2 : ∀ k, 0 < k → k < h.items.length → (k - 1) / 2 = i → 0 < i → cmp (pv m h k) (pv m h ((i - 1) / 2)) = false) :
    ∃ m' h', (down (h.items.length + 1) m h i h.items.length >>= fun r =>
        if r.2.2 > i then .val (r.1, r.2.1) else up (i + 1) r.1 r.2.1 i) = .val (m', h') ∧ Sim m h m' h' ∧
      HP cmp (pv m' h') 0 h.items.length := by
  obtain ⟨m2, h2', i', e2, s2, -, hr⟩ := down_spec hc 0 h.items.length (h.items.length + 1) m h i hcmp (Nat.le_refl _) (by omega) (by omega) hi
    (Nat.zero_le _) (fun k a b _ c d => h1 k a b c d) (fun k a b c d _ => h2 k a b c d)
  rw [e2, Go.val_bind]
  rcases hr with ⟨rfl, rfl, rfl, hch⟩ | ⟨hlt, hp⟩
  · simp only [gt_iff_lt, lt_irrefl, if_false]
    obtain ⟨m3, h3, e3, s3, hp3, -⟩ := up_spec hc h2'.items.length (i' + 1) m2 h2' i' hcmp (by omega) hi (Nat.le_refl _)
      (by
        intro k hk hn hki
        by_cases hpk : (k - 1) / 2 = i'
        · rw [hpk]; exact hch k hk hn hpk
        · exact h1 k hk hn hki hpk) h2
    exact ⟨m3, h3, e3, s3, hp3⟩
  · exact ⟨m2, h2', if_pos hlt, s2, hp⟩

theorem update_spec {m : Mem F} {h : Heap F} (hc : SWO h.cmp) (w : WF m h) {a : Nat} (ha : a ∈ h.items) (x : F) :
    ∃ m' h', update m h a x = .val (m', h') ∧ WF m' h' ∧ h'.id = h.id ∧ h'.cmp = h.cmp ∧ h'.items.Perm h.items ∧
      m'.val = upd m.val a x ∧ m'.hid = m.hid ∧ ∀ b, b ∉ h.items → m'.idx b = m.idx b := by
  obtain ⟨i, hi, hia, hidx, -⟩ := w.idx_of ha
  set m1 : Mem F := { m with val := upd m.val a x } with hm1
  have po : ∀ k, k < h.items.length → k ≠ i → pv m1 h k = pv m h k := by
    intro k hk hki
    have : h.items.getD k 0 ≠ a := by
      rw [← hia]
      simp only [List.getD_eq_getElem?_getD, List.getElem?_eq_getElem hk, List.getElem?_eq_getElem hi, Option.getD_some]
      exact fun c => hki ((List.Nodup.getElem_inj_iff w.nodup).1 c)
    simp only [pv, hm1, upd, if_neg this]
  obtain ⟨m', h', e, s, hp⟩ := sift_spec (m := m1) (h := h) hc rfl hi
    (by
      intro k hk hn hki hpk
      rw [po k hn hki, po _ (by omega) hpk]
      exact w.heap k hk hn (Nat.zero_le _))
    (by
      intro k hk hn hpk h0
      rw [po k hn (by omega), po _ (by omega) (by omega)]
      refine hc.ntrans (w.heap k hk hn (Nat.zero_le _)) ?_
      rw [hpk]
      exact w.heap i h0 hi (Nat.zero_le _))
  have hbk : Book m1 h := w.book
  refine ⟨m', h', ?_, ⟨s.perm.nodup_iff.2 w.nodup, s.book w.nodup hbk, ?_⟩, s.id, s.cmp, s.perm, s.val, s.hid, s.idx⟩
  · simp only [update, fix, hidx, Heap.len, Int.toNat_natCast]
    rw [if_neg (by omega)]
    exact e
  · rw [s.len, s.cmp]; exact hp

theorem remove_spec {m : Mem F} {h : Heap F} (hc : SWO h.cmp) (w : WF m h) {a : Nat} (ha : a ∈ h.items) :
    ∃ m' h', remove m h a = .val (m', h') ∧ WF m' h' ∧ h'.id = h.id ∧ h'.cmp = h.cmp ∧ (a :: h'.items).Perm h.items ∧
      m'.val = m.val ∧ m'.hid = m.hid ∧ ∀ b, b ∉ h.items → m'.idx b = m.idx b := by
  obtain ⟨i, hi, hia, hidx, -⟩ := w.idx_of ha
  have hne : h.items ≠ [] := List.ne_nil_of_mem ha
  have hpos : 0 < h.items.length := List.length_pos_iff.2 hne
  by_cases hlast : h.items.length - 1 = i
  · obtain ⟨m3, h3, e3, w3, q1, q2, q3, q4, q5, q6⟩ := rawPop_spec w.nodup w.book hne
      (fun k hk hn _ => w.heap k hk (by omega) (Nat.zero_le _))
    rw [hlast, hia] at e3 q3
    refine ⟨m3, h3, ?_, w3, q1, q2, q3, q4, q5, q6⟩
    simp only [remove, removeAt, hidx, Heap.len, Int.toNat_natCast]
    rw [if_neg (by omega), if_neg (by simpa using hlast), Go.val_bind, e3]
    rfl
  · obtain ⟨m1, h1, e1, s1, p1, ga1⟩ := swap_spec m h (i := i) (j := h.items.length - 1) hi (by omega)
    have po : ∀ k, k ≠ i → k ≠ h.items.length - 1 → pv m1 h1 k = pv m h k := by
      intro k a b; rw [p1]; simp [sw, a, b]
    have g1 : ∀ k, 0 < k → k < h.items.length - 1 → 0 ≤ (k - 1) / 2 → k ≠ i → (k - 1) / 2 ≠ i →
        h.cmp (pv m1 h1 k) (pv m1 h1 ((k - 1) / 2)) = false := by
      intro k hk hn _ hki hpk
      rw [po k hki (by omega), po _ hpk (by omega)]
      exact w.heap k hk (by omega) (Nat.zero_le _)
    have g2 : ∀ k, 0 < k → k < h.items.length - 1 → (k - 1) / 2 = i → 0 < i → 0 ≤ (i - 1) / 2 →
        h.cmp (pv m1 h1 k) (pv m1 h1 ((i - 1) / 2)) = false := by
      intro k hk hn hpk h0 _
      rw [po k (by omega) (by omega), po _ (by omega) (by omega)]
      refine hc.ntrans (w.heap k hk (by omega) (Nat.zero_le _)) ?_
      rw [hpk]
      exact w.heap i h0 hi (Nat.zero_le _)
    obtain ⟨m2, h2, i', e2, s2, po2, hr⟩ := down_spec (cmp := h.cmp) hc 0 (h.items.length - 1) (h.items.length - 1 + 1) m1 h1 i
      s1.cmp (by rw [s1.len]; omega) (by omega) (by omega) (by rw [s1.len]; omega) (Nat.zero_le _) g1 g2
    have hmid : ∃ m' h', ((if i' > i then .val (m2, h2) else up (i + 1) m2 h2 i) : Go (Mem F × Heap F)) = .val (m', h') ∧
        Sim m1 h1 m' h' ∧ HP h.cmp (pv m' h') 0 (h.items.length - 1) ∧
        h'.items.getD (h.items.length - 1) 0 = h1.items.getD (h.items.length - 1) 0 := by
      rcases hr with ⟨rfl, rfl, rfl, hch⟩ | ⟨hlt, hp⟩
      · rw [if_neg (by omega)]
        obtain ⟨m3, h3, e3, s3, hp3, g3⟩ := up_spec hc (h.items.length - 1) (i' + 1) m2 h2 i' s1.cmp (by omega) (by omega)
          (by rw [s1.len]; omega)
          (by
            intro k hk hn hki
            by_cases hpk : (k - 1) / 2 = i'
            · rw [hpk]; exact hch k hk hn hpk
            · exact g1 k hk hn (Nat.zero_le _) hki hpk)
          (fun k a b c d => g2 k a b c d (Nat.zero_le _))
        exact ⟨m3, h3, e3, s3, hp3, g3 _ (Nat.le_refl _)⟩
      · exact ⟨m2, h2, if_pos hlt, s2, hp, po2 _ (Nat.le_refl _) hlast⟩
    obtain ⟨m3, h3, e3, s3, hp3, hg3⟩ := hmid
    have hlen3 : h3.items.length = h.items.length := by rw [s3.len, s1.len]
    have hnd1 := s1.perm.nodup_iff.2 w.nodup
    have hbk1 := s1.book w.nodup w.book
    have hlasta : h3.items.getD (h3.items.length - 1) 0 = a := by
      rw [hlen3, hg3]
      have e1' := e1
      simp only [swap, List.getElem?_eq_getElem hi, List.getElem?_eq_getElem (show h.items.length - 1 < h.items.length by omega)] at e1'
      simp only [Go.val.injEq, Prod.mk.injEq] at e1'
      rw [← e1'.2]
      rw [List.getD_eq_getElem?_getD, List.getElem?_eq_getElem hi] at hia
      simp only [Option.getD_some] at hia
      simp only [List.getD_eq_getElem?_getD]
      rw [List.getElem?_set_self (by simp; omega)]
      simpa using hia
    obtain ⟨m4, h4, e4, w4, q1, q2, q3, q4, q5, q6⟩ := rawPop_spec (s3.perm.nodup_iff.2 hnd1) (s3.book hnd1 hbk1)
      (by intro c; rw [c] at hlen3; simp at hlen3; omega)
      (by rw [s3.cmp, s1.cmp, hlen3]; exact hp3)
    rw [hlasta] at e4 q3
    refine ⟨m4, h4, ?_, w4, q1.trans (s3.id.trans s1.id), q2.trans (s3.cmp.trans s1.cmp), q3.trans (s3.perm.trans s1.perm),
      q4.trans (s3.val.trans s1.val), q5.trans (s3.hid.trans s1.hid), ?_⟩
    · simp only [remove, removeAt, hidx, Heap.len, Int.toNat_natCast]
      rw [if_neg (by omega), if_pos hlast, e1, Go.val_bind, e2, Go.val_bind]
      simp only
      rw [e3, Go.val_bind, e4]
      rfl
    · intro b hb
      have hb1 : b ∉ h1.items := fun c => hb (s1.perm.mem_iff.1 c)
      rw [q6 b (fun c => hb1 (s3.perm.mem_iff.1 c)), s3.idx b hb1, s1.idx b hb]

theorem initLoop_spec {cmp : F → F → Bool} (hc : SWO cmp) : ∀ (i : Nat) (m : Mem F) (h : Heap F), h.cmp = cmp → i ≤ h.items.length / 2 →
    HP cmp (pv m h) i h.items.length →
    ∃ m' h', initLoop m h i = .val (m', h') ∧ Sim m h m' h' ∧ HP cmp (pv m' h') 0 h.items.length := by
  intro i
  induction i with
  | zero => intro m h hcmp hl hp; exact ⟨m, h, rfl, Sim.refl m h, hp⟩
  | succ i ih =>
    intro m h hcmp hl hp
    obtain ⟨m1, h1, i', e, s, -, hr⟩ := down_spec hc i h.items.length (h.items.length + 1) m h i hcmp (Nat.le_refl _) (by omega) (by omega)
      (by omega) (Nat.le_refl _) (fun k hk hn hl _ hpk => hp k hk hn (by omega)) (fun k hk hn hpk h0 hl => by omega)
    have hp1 : HP cmp (pv m1 h1) i h.items.length := by
      rcases hr with ⟨-, rfl, rfl, hch⟩ | ⟨-, hp1⟩
      · intro k hk hn hl
        by_cases hpk : (k - 1) / 2 = i
        · rw [hpk]; exact hch k hk hn hpk
        · exact hp k hk hn (by omega)
      · exact hp1
    obtain ⟨m2, h2, e2, s2, hp2⟩ := ih m1 h1 (s.cmp.trans hcmp) (by rw [s.len]; omega) (by rw [s.len]; exact hp1)
    refine ⟨m2, h2, ?_, s.trans s2, by rw [s.len] at hp2; exact hp2⟩
    simp only [initLoop, Heap.len, e, Go.val_bind]
    exact e2

/-- `New` builds a well-formed heap of exactly the given values, in new items. -/
theorem new_items (m : Mem F) (base : Nat) (id : String) (vals : List F) {cmp : F → F → Bool} (hc : SWO cmp) :
    ∃ m' h', new m base id vals cmp = .val (m', h') ∧ WF m' h' ∧ h'.id = id ∧ h'.cmp = cmp ∧
      h'.items.Perm ((List.range vals.length).map (base + ·)) ∧ ∀ k, m'.val (base + k) = (vals[k]?).getD (m.val (base + k)) := by
  set m1 : Mem F :=
    ⟨fun a => if base ≤ a then (vals[a - base]?).getD (m.val a) else m.val a,
     fun a => if base ≤ a ∧ a < base + vals.length then id else m.hid a,
     fun a => if base ≤ a ∧ a < base + vals.length then ((a - base : Nat) : Int) else m.idx a⟩ with hm1
  set h1 : Heap F := ⟨id, (List.range vals.length).map (base + ·), cmp⟩ with hh1
  have hlen : h1.items.length = vals.length := by simp [hh1]
  have hnd : h1.items.Nodup := by
    simp only [hh1]
    exact List.nodup_range.map (fun a b h => by simpa using h)
  have hbk : Book m1 h1 := by
    intro k a hk
    simp only [hh1, List.getElem?_map] at hk
    by_cases hkl : k < vals.length
    · rw [List.getElem?_range hkl] at hk
      simp at hk
      subst hk
      simp [hm1, hh1, hkl]
    · rw [List.getElem?_eq_none (by simpa using hkl)] at hk; cases hk
  obtain ⟨m2, h2, e, s, hp⟩ := initLoop_spec hc (h1.items.length / 2) m1 h1 rfl (Nat.le_refl _)
    (fun k hk hn hl => by omega)
  refine ⟨m2, h2, e, ⟨s.perm.nodup_iff.2 hnd, s.book hnd hbk, by rw [s.len, s.cmp]; exact hp⟩, s.id, s.cmp, s.perm, fun k => ?_⟩
  rw [s.val]
  simp [hm1]

/-- `New` builds a well-formed heap of exactly the given values. -/
theorem new_spec (m : Mem F) (base : Nat) (id : String) (vals : List F) {cmp : F → F → Bool} (hc : SWO cmp) :
    ∃ m' h', new m base id vals cmp = .val (m', h') ∧ WF m' h' ∧ h'.id = id ∧ h'.cmp = cmp ∧ (values m' h').Perm vals := by
  set m1 : Mem F :=
    ⟨fun a => if base ≤ a then (vals[a - base]?).getD (m.val a) else m.val a,
     fun a => if base ≤ a ∧ a < base + vals.length then id else m.hid a,
     fun a => if base ≤ a ∧ a < base + vals.length then ((a - base : Nat) : Int) else m.idx a⟩ with hm1
  set h1 : Heap F := ⟨id, (List.range vals.length).map (base + ·), cmp⟩ with hh1
  have hlen : h1.items.length = vals.length := by simp [hh1]
  have hnd : h1.items.Nodup := by
    simp only [hh1]
    exact List.nodup_range.map (fun a b h => by simpa using h)
  have hbk : Book m1 h1 := by
    intro k a hk
    simp only [hh1, List.getElem?_map] at hk
    by_cases hkl : k < vals.length
    · rw [List.getElem?_range hkl] at hk
      simp at hk
      subst hk
      simp [hm1, hh1, hkl]
    · rw [List.getElem?_eq_none (by simpa using hkl)] at hk; cases hk
  obtain ⟨m2, h2, e, s, hp⟩ := initLoop_spec hc (h1.items.length / 2) m1 h1 rfl (Nat.le_refl _)
    (fun k hk hn hl => by omega)
  refine ⟨m2, h2, e, ⟨s.perm.nodup_iff.2 hnd, s.book hnd hbk, by rw [s.len, s.cmp]; exact hp⟩, s.id, s.cmp, ?_⟩
  have : (values m1 h1) = vals := by
    apply List.ext_getElem?
    intro k
    simp only [values, hh1, List.map_map, List.getElem?_map]
    by_cases hkl : k < vals.length
    · rw [List.getElem?_range hkl]
      simp [hm1, List.getElem?_eq_getElem hkl]
    · rw [List.getElem?_eq_none (by simpa using hkl), List.getElem?_eq_none (by omega)]; rfl
  rw [← this, values, values, s.val]
  exact s.perm.map _

end Verif.Heap
