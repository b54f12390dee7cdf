import Verif.Model.HeapMedian
import Verif.Proofs.HeapOps
import Verif.Proofs.Window
import Verif.Proofs.Quantile

/-! # `HeapMedian`: the two heaps, eviction and rebalancing -/

set_option linter.unusedSectionVars false
set_option linter.unusedSimpArgs false

namespace Verif.HeapMedian
open Verif Verif.Heap Verif.Spec

section
variable {F : Type} [LinearOrder F]

theorem swo_fmax : SWO (fmax : F → F → Bool) := by
  constructor
  · intro a b h; simp [fmax] at *; exact le_of_lt h
  · intro a b c h1 h2; simp [fmax] at *; exact le_trans h1 h2

theorem swo_fmin : SWO (fmin : F → F → Bool) := by
  constructor
  · intro a b h; simp [fmin] at *; exact le_of_lt h
  · intro a b c h1 h2; simp [fmin] at *; exact le_trans h2 h1

/-- All item addresses. -/
def all (s : HM F) : List Nat := s.low.items ++ s.high.items

/-- The stored values. -/
def content (s : HM F) : Multiset F := ((all s).map s.mem.val : List F)

/-- Both heaps are well formed and ordered against each other. -/
structure C (s : HM F) : Prop where
  low : WF s.mem s.low
  high : WF s.mem s.high
  lid : s.low.id = "low"
  hid : s.high.id = "high"
  lcmp : s.low.cmp = fmax
  hcmp : s.high.cmp = fmin
  disj : ∀ a ∈ s.low.items, a ∉ s.high.items
  fresh : ∀ a ∈ all s, a < s.next
  ord : ∀ a ∈ s.low.items, ∀ b ∈ s.high.items, s.mem.val a ≤ s.mem.val b

theorem C.nodup {s : HM F} (c : C s) : (all s).Nodup := by
  rw [all, List.nodup_append]
  exact ⟨c.low.nodup, c.high.nodup, fun a ha b hb e => c.disj a ha (e ▸ hb)⟩

theorem content_upd {l : List Nat} (hn : l.Nodup) {a : Nat} (ha : a ∈ l) (v : Nat → F) (x : F) :
    ((l.map (upd v a x) : List F) : Multiset F) = x ::ₘ ((l.map v : List F) : Multiset F).erase (v a) := by
  have hp := List.perm_cons_erase ha
  have hna : a ∉ l.erase a := fun c => ((List.Nodup.mem_erase_iff hn).1 c).1 rfl
  have e1 : ((l.map (upd v a x) : List F) : Multiset F) = x ::ₘ (((l.erase a).map v : List F) : Multiset F) := by
    rw [Multiset.cons_coe, Multiset.coe_eq_coe]
    refine (hp.map _).trans ?_
    rw [List.map_cons]
    have : (l.erase a).map (upd v a x) = (l.erase a).map v := by
      apply List.map_congr_left
      intro b hb
      have : b ≠ a := fun c => hna (c ▸ hb)
      simp [upd, this]
    rw [this]; simp [upd]
  have e2 : ((l.map v : List F) : Multiset F) = v a ::ₘ (((l.erase a).map v : List F) : Multiset F) := by
    rw [Multiset.cons_coe, Multiset.coe_eq_coe]
    simpa using hp.map v
  rw [e1, e2, Multiset.erase_cons_head]

theorem low_peek {s : HM F} (c : C s) (hne : s.low.items ≠ []) :
    ∃ a ∈ s.low.items, peek s.mem s.low = .val (s.mem.val a) ∧ ∀ b ∈ s.low.items, s.mem.val b ≤ s.mem.val a := by
  obtain ⟨a, ha, e, h⟩ := peek_spec (by rw [c.lcmp]; exact swo_fmax) c.low hne
  refine ⟨a, ha, e, fun b hb => ?_⟩
  have := h b hb
  rw [c.lcmp] at this; simpa [fmax] using this

theorem high_peek {s : HM F} (c : C s) (hne : s.high.items ≠ []) :
    ∃ a ∈ s.high.items, peek s.mem s.high = .val (s.mem.val a) ∧ ∀ b ∈ s.high.items, s.mem.val a ≤ s.mem.val b := by
  obtain ⟨a, ha, e, h⟩ := peek_spec (by rw [c.hcmp]; exact swo_fmin) c.high hne
  refine ⟨a, ha, e, fun b hb => ?_⟩
  have := h b hb
  rw [c.hcmp] at this; simpa [fmin] using this

/-- Moving the item `a` (not in either heap, its value already set) into the low heap. -/
theorem push_low {s : HM F} (c : C s) {a : Nat} (hl : a ∉ s.low.items) (hh : a ∉ s.high.items) (ha : a < s.next)
    (hle : ∀ b ∈ s.high.items, s.mem.val a ≤ s.mem.val b) :
    ∃ m' h', Heap.push s.mem s.low a = .val (m', h') ∧ C { s with mem := m', low := h' } ∧ h'.items.Perm (a :: s.low.items) ∧
      m'.val = s.mem.val := by
  obtain ⟨m', h', e, w, q1, q2, q3, q4, q5, q6⟩ := Heap.push_spec (by rw [c.lcmp]; exact swo_fmax) c.low hl
  refine ⟨m', h', e, ?_, q3, q4⟩
  have hmem : ∀ b, b ∈ h'.items ↔ b = a ∨ b ∈ s.low.items := fun b => by rw [q3.mem_iff]; simp
  refine ⟨w, c.high.frame (fun b _ => by rw [q4]) (fun b hb => q5 b (fun e => hh (e ▸ hb)))
      (fun b hb => q6 b (fun e => hh (e ▸ hb)) (fun h => c.disj b h hb)), q1.trans c.lid, c.hid, q2.trans c.lcmp, c.hcmp, ?_, ?_, ?_⟩
  · intro b hb
    rcases (hmem b).1 hb with rfl | hb
    · exact hh
    · exact c.disj b hb
  · intro b hb
    simp only [all, List.mem_append] at hb
    rcases hb with hb | hb
    · rcases (hmem b).1 hb with rfl | hb
      · exact ha
      · exact c.fresh b (by simp [all, hb])
    · exact c.fresh b (by simp [all, hb])
  · intro b hb d hd
    show m'.val b ≤ m'.val d
    rw [q4]
    rcases (hmem b).1 hb with rfl | hb
    · exact hle d hd
    · exact c.ord b hb d hd

theorem push_high {s : HM F} (c : C s) {a : Nat} (hl : a ∉ s.low.items) (hh : a ∉ s.high.items) (ha : a < s.next)
    (hle : ∀ b ∈ s.low.items, s.mem.val b ≤ s.mem.val a) :
    ∃ m' h', Heap.push s.mem s.high a = .val (m', h') ∧ C { s with mem := m', high := h' } ∧ h'.items.Perm (a :: s.high.items) ∧
      m'.val = s.mem.val := by
  obtain ⟨m', h', e, w, q1, q2, q3, q4, q5, q6⟩ := Heap.push_spec (by rw [c.hcmp]; exact swo_fmin) c.high hh
  refine ⟨m', h', e, ?_, q3, q4⟩
  have hmem : ∀ b, b ∈ h'.items ↔ b = a ∨ b ∈ s.high.items := fun b => by rw [q3.mem_iff]; simp
  refine ⟨c.low.frame (fun b _ => by rw [q4]) (fun b hb => q5 b (fun e => hl (e ▸ hb)))
      (fun b hb => q6 b (fun e => hl (e ▸ hb)) (c.disj b hb)), w, c.lid, q1.trans c.hid, c.lcmp, q2.trans c.hcmp, ?_, ?_, ?_⟩
  · intro b hb hb'
    rcases (hmem b).1 hb' with rfl | hb'
    · exact hl hb
    · exact c.disj b hb hb'
  · intro b hb
    simp only [all, List.mem_append] at hb
    rcases hb with hb | hb
    · exact c.fresh b (by simp [all, hb])
    · rcases (hmem b).1 hb with rfl | hb
      · exact ha
      · exact c.fresh b (by simp [all, hb])
  · intro b hb d hd
    show m'.val b ≤ m'.val d
    rw [q4]
    rcases (hmem d).1 hd with rfl | hd
    · exact hle b hb
    · exact c.ord b hb d hd

/-- Dropping items from the low heap (by `Pop` or `Remove`). -/
theorem C.drop_low {s : HM F} (c : C s) {a : Nat} {m' : Mem F} {h' : Heap.Heap F} (w : WF m' h') (q1 : h'.id = s.low.id)
    (q2 : h'.cmp = s.low.cmp) (q3 : (a :: h'.items).Perm s.low.items) (q4 : m'.val = s.mem.val) (q5 : m'.hid = s.mem.hid)
    (q6 : ∀ b, b ∉ s.low.items → m'.idx b = s.mem.idx b) : C { s with mem := m', low := h' } := by
  have hmem : ∀ b ∈ h'.items, b ∈ s.low.items := fun b hb => q3.mem_iff.1 (List.mem_cons_of_mem _ hb)
  refine ⟨w, c.high.frame (fun b _ => by rw [q4]) (fun b _ => by rw [q5]) (fun b hb => q6 b (fun h => c.disj b h hb)),
    q1.trans c.lid, c.hid, q2.trans c.lcmp, c.hcmp, fun b hb => c.disj b (hmem b hb), ?_, ?_⟩
  · intro b hb
    simp only [all, List.mem_append] at hb
    rcases hb with hb | hb
    · exact c.fresh b (by simp [all, hmem b hb])
    · exact c.fresh b (by simp [all, hb])
  · intro b hb d hd
    show m'.val b ≤ m'.val d
    rw [q4]; exact c.ord b (hmem b hb) d hd

theorem C.drop_high {s : HM F} (c : C s) {a : Nat} {m' : Mem F} {h' : Heap.Heap F} (w : WF m' h') (q1 : h'.id = s.high.id)
    (q2 : h'.cmp = s.high.cmp) (q3 : (a :: h'.items).Perm s.high.items) (q4 : m'.val = s.mem.val) (q5 : m'.hid = s.mem.hid)
    (q6 : ∀ b, b ∉ s.high.items → m'.idx b = s.mem.idx b) : C { s with mem := m', high := h' } := by
  have hmem : ∀ b ∈ h'.items, b ∈ s.high.items := fun b hb => q3.mem_iff.1 (List.mem_cons_of_mem _ hb)
  refine ⟨c.low.frame (fun b _ => by rw [q4]) (fun b _ => by rw [q5]) (fun b hb => q6 b (c.disj b hb)), w,
    c.lid, q1.trans c.hid, c.lcmp, q2.trans c.hcmp, fun b hb h => c.disj b hb (hmem b h), ?_, ?_⟩
  · intro b hb
    simp only [all, List.mem_append] at hb
    rcases hb with hb | hb
    · exact c.fresh b (by simp [all, hb])
    · exact c.fresh b (by simp [all, hmem b hb])
  · intro b hb d hd
    show m'.val b ≤ m'.val d
    rw [q4]; exact c.ord b hb d (hmem d hd)

/-- Changing the value of an item outside both heaps. -/
theorem C.setVal {s : HM F} (c : C s) {a : Nat} (hl : a ∉ s.low.items) (hh : a ∉ s.high.items) (x : F) :
    C { s with mem := { s.mem with val := upd s.mem.val a x } } := by
  have h1 : ∀ b ∈ s.low.items, upd s.mem.val a x b = s.mem.val b := fun b hb => by
    have : b ≠ a := fun e => hl (e ▸ hb)
    simp [upd, this]
  have h2 : ∀ b ∈ s.high.items, upd s.mem.val a x b = s.mem.val b := fun b hb => by
    have : b ≠ a := fun e => hh (e ▸ hb)
    simp [upd, this]
  refine ⟨c.low.frame h1 (fun _ _ => rfl) (fun _ _ => rfl), c.high.frame h2 (fun _ _ => rfl) (fun _ _ => rfl), c.lid, c.hid, c.lcmp,
    c.hcmp, c.disj, c.fresh, ?_⟩
  intro b hb d hd
  show upd s.mem.val a x b ≤ upd s.mem.val a x d
  rw [h1 b hb, h2 d hd]; exact c.ord b hb d hd

theorem C.queue {s : HM F} (c : C s) (q : Ring Nat) : C { s with queue := q } :=
  ⟨c.low, c.high, c.lid, c.hid, c.lcmp, c.hcmp, c.disj, c.fresh, c.ord⟩

/-- Fields that the heap steps leave alone. -/
def Same (s s' : HM F) : Prop := s'.window = s.window ∧ s'.queue = s.queue

theorem insert_spec {s : HM F} (c : C s) (hlow : s.low.items = [] → s.high.items = []) (x : F) :
    ∃ s' item, insert s x = .val (s', item) ∧ C s' ∧ Same s s' ∧ (all s').Perm (item :: all s) ∧ content s' = x ::ₘ content s ∧
      ((s'.low.items.length = s.low.items.length + 1 ∧ s'.high.items.length = s.high.items.length) ∨
       (s'.low.items.length = s.low.items.length ∧ s'.high.items.length = s.high.items.length + 1 ∧ s.low.items ≠ [])) := by
  have hnl : s.next ∉ s.low.items := fun h => absurd (c.fresh _ (by simp [all, h])) (lt_irrefl _)
  have hnh : s.next ∉ s.high.items := fun h => absurd (c.fresh _ (by simp [all, h])) (lt_irrefl _)
  set m : Mem F := ⟨upd s.mem.val s.next x, upd s.mem.hid s.next "", upd s.mem.idx s.next 0⟩ with hm
  set s0 : HM F := { s with mem := m, next := s.next + 1 } with hs0
  have hne1 : ∀ b ∈ s.low.items, b ≠ s.next := fun b hb e => hnl (e ▸ hb)
  have hne2 : ∀ b ∈ s.high.items, b ≠ s.next := fun b hb e => hnh (e ▸ hb)
  have c0 : C s0 := by
    refine ⟨c.low.frame (fun b hb => by simp [hs0, hm, upd, hne1 b hb]) (fun b hb => by simp [hs0, hm, upd, hne1 b hb])
      (fun b hb => by simp [hs0, hm, upd, hne1 b hb]), c.high.frame (fun b hb => by simp [hs0, hm, upd, hne2 b hb])
      (fun b hb => by simp [hs0, hm, upd, hne2 b hb]) (fun b hb => by simp [hs0, hm, upd, hne2 b hb]), c.lid, c.hid, c.lcmp, c.hcmp,
      c.disj, fun a ha => Nat.lt_succ_of_lt (c.fresh a ha), ?_⟩
    intro b hb d hd
    show upd s.mem.val s.next x b ≤ upd s.mem.val s.next x d
    simp only [upd, if_neg (hne1 b hb), if_neg (hne2 d hd)]
    exact c.ord b hb d hd
  have hx : m.val s.next = x := by simp [hm, upd]
  have hcont : ∀ l : List Nat, l.Perm (s.next :: all s) → ((l.map m.val : List F) : Multiset F) = x ::ₘ content s := by
    intro l hl
    rw [Multiset.coe_eq_coe.2 (hl.map m.val), List.map_cons, hx, content, Multiset.cons_coe]
    congr 2
    apply List.map_congr_left
    intro b hb
    have : b ≠ s.next := fun e => absurd (c.fresh _ (e ▸ hb)) (lt_irrefl _)
    simp [hm, upd, this]
  by_cases hb : s.low.items = [] ∨ ∃ p, peek m s.low = .val p ∧ x ≤ p
  · have hle : ∀ b ∈ s.high.items, m.val s.next ≤ m.val b := by
      intro b hbm
      rcases hb with hb | ⟨p, hp, hxp⟩
      · rw [hlow hb] at hbm; simp at hbm
      · by_cases hl : s.low.items = []
        · rw [hlow hl] at hbm; simp at hbm
        · obtain ⟨a, ha, e, -⟩ := low_peek c0 hl
          have e' : peek m s.low = .val (m.val a) := e
          rw [hp] at e'; cases e'
          rw [hx]
          exact le_trans hxp (c0.ord a ha b hbm)
    obtain ⟨m', h', e, c', hp, hv⟩ := push_low c0 (a := s.next) hnl hnh (Nat.lt_succ_self _) hle
    refine ⟨_, s.next, ?_, c', ⟨rfl, rfl⟩, ?_, ?_, Or.inl ⟨by simp [hp.length_eq, hs0], rfl⟩⟩
    · have hcond : ((if s.low.len = 0 then pure true else do
          let p ← peek m s.low
          pure (x ≤ᵇ p) : Go Bool)) = .val true := by
        rcases hb with hb | ⟨p, hp, hxp⟩
        · rw [if_pos (by simp [Heap.len, hb])]; rfl
        · by_cases hl : s.low.len = 0
          · rw [if_pos hl]; rfl
          · rw [if_neg hl, hp]; simp [hxp]
      unfold insert
      simp only
      rw [← hm, hcond, Go.val_bind, if_pos rfl]
      have e' : Heap.push m s.low s.next = .val (m', h') := e
      rw [e', Go.val_bind]; rfl
    · show (h'.items ++ s.high.items).Perm _
      exact (hp.append_right _)
    · show (((h'.items ++ s.high.items).map m'.val : List F) : Multiset F) = _
      rw [hv]
      exact hcont _ (hp.append_right _)
  · push Not at hb
    obtain ⟨hl, hb⟩ := hb
    obtain ⟨a, ha, e, hmax⟩ := low_peek c0 hl
    have e1 : peek m s.low = .val (m.val a) := e
    have hlt := hb _ e1
    obtain ⟨m', h', e, c', hp, hv⟩ := push_high c0 (a := s.next) hnl hnh (Nat.lt_succ_self _)
      (fun b hb => by
        show m.val b ≤ m.val s.next
        rw [hx]; exact le_trans (hmax b hb) (le_of_lt hlt))
    refine ⟨_, s.next, ?_, c', ⟨rfl, rfl⟩, ?_, ?_, Or.inr ⟨rfl, by simp [hp.length_eq, hs0], hl⟩⟩
    · unfold insert
      simp only
      rw [← hm, if_neg (by simpa [Heap.len] using hl), e1, Go.val_bind]
      simp only [goLe_eq, decide_eq_false (not_le_of_gt hlt), Go.pure_eq, Go.val_bind, Bool.false_eq_true, if_false]
      have e' : Heap.push m s.high s.next = .val (m', h') := e
      rw [e', Go.val_bind]
    · show (s.low.items ++ h'.items).Perm _
      exact (hp.append_left _).trans List.perm_middle
    · show (((s.low.items ++ h'.items).map m'.val : List F) : Multiset F) = _
      rw [hv]
      exact hcont _ ((hp.append_left _).trans List.perm_middle)

theorem rebalance_spec {s : HM F} (c : C s) {item : Nat} (hi : item ∈ all s)
    (hd : s.low.items.length ≤ s.high.items.length + 3 ∧ s.high.items.length ≤ s.low.items.length + 3) :
    ∃ s' it, rebalance s item = .val (s', it) ∧ C s' ∧ Same s s' ∧ (all s').Perm (all s) ∧ s'.mem.val = s.mem.val ∧ it ∈ all s ∧
      s'.low.items.length ≤ s'.high.items.length + 1 ∧ s'.high.items.length ≤ s'.low.items.length + 1 ∧
      (s'.low.items.length = s.low.items.length ∧ s'.high.items.length = s.high.items.length ∨ 
        2 ≤ s'.low.items.length + s'.high.items.length) := by
  unfold rebalance
  by_cases h1 : s.low.len + 1 < s.high.len
  · have h1' := h1
    simp only [Heap.len] at h1'
    rw [if_pos h1]
    have hne : s.high.items ≠ [] := by intro e; rw [e] at h1'; simp at h1'
    obtain ⟨a, m1, g, e1, w, q1, q2, q3, q4, q5, q6, q7⟩ := pop_spec (by rw [c.hcmp]; exact swo_fmin) c.high hne
    have c1 := c.drop_high w q1 q2 q3 q4 q5 q6
    have hah : a ∈ s.high.items := q3.mem_iff.1 (by simp)
    have hag : a ∉ g.items := (List.nodup_cons.1 (q3.nodup_iff.2 c.high.nodup)).1
    have hal : a ∉ s.low.items := fun h => c.disj a h hah
    obtain ⟨m2, l, e2, c2, p2, v2⟩ := push_low c1 (a := a) hal hag (c.fresh a (by simp [all, hah]))
      (fun b hb => by
        show m1.val a ≤ m1.val b
        rw [q4]
        have := q7 b (q3.mem_iff.1 (List.mem_cons_of_mem _ hb))
        rw [c.hcmp] at this; simpa [fmin] using this)
    have e2' : Heap.push m1 s.low a = .val (m2, l) := e2
    have hl3 := q3.length_eq
    have hl2 := p2.length_eq
    simp only [List.length_cons] at hl2 hl3
    refine ⟨_, a, by rw [e1, Go.val_bind]; simp only; rw [e2', Go.val_bind]; rfl, c2, ⟨rfl, rfl⟩, ?_, v2.trans q4, by simp [all, hah], ?_, ?_,
      Or.inr ?_⟩
    · show (l.items ++ g.items).Perm (s.low.items ++ s.high.items)
      refine (p2.append_right _).trans ?_
      refine List.Perm.trans ?_ (q3.append_left s.low.items)
      exact List.perm_middle.symm
    · simp only; omega
    · simp only; omega
    · simp only; omega
  · rw [if_neg h1]
    by_cases h2 : s.low.len > s.high.len + 1
    · have h2' := h2
      simp only [Heap.len] at h2'
      rw [if_pos h2]
      have hne : s.low.items ≠ [] := by intro e; rw [e] at h2'; simp at h2'
      obtain ⟨a, m1, g, e1, w, q1, q2, q3, q4, q5, q6, q7⟩ := pop_spec (by rw [c.lcmp]; exact swo_fmax) c.low hne
      have c1 := c.drop_low w q1 q2 q3 q4 q5 q6
      have hal : a ∈ s.low.items := q3.mem_iff.1 (by simp)
      have hag : a ∉ g.items := (List.nodup_cons.1 (q3.nodup_iff.2 c.low.nodup)).1
      have hah : a ∉ s.high.items := c.disj a hal
      obtain ⟨m2, l, e2, c2, p2, v2⟩ := push_high c1 (a := a) hag hah (c.fresh a (by simp [all, hal]))
        (fun b hb => by
          show m1.val b ≤ m1.val a
          rw [q4]
          have := q7 b (q3.mem_iff.1 (List.mem_cons_of_mem _ hb))
          rw [c.lcmp] at this; simpa [fmax] using this)
      have e2' : Heap.push m1 s.high a = .val (m2, l) := e2
      have hl3 := q3.length_eq
      have hl2 := p2.length_eq
      simp only [List.length_cons] at hl2 hl3
      refine ⟨_, a, by rw [e1, Go.val_bind]; simp only; rw [e2', Go.val_bind]; rfl, c2, ⟨rfl, rfl⟩, ?_, v2.trans q4, by simp [all, hal], ?_, ?_,
        Or.inr ?_⟩
      · show (g.items ++ l.items).Perm (s.low.items ++ s.high.items)
        refine (p2.append_left _).trans ?_
        refine List.Perm.trans ?_ (q3.append_right s.high.items)
        exact List.perm_middle
      · simp only; omega
      · simp only; omega
      · simp only; omega
    · rw [if_neg h2]
      simp only [Heap.len] at h1 h2
      exact ⟨s, item, rfl, c, ⟨rfl, rfl⟩, List.Perm.refl _, rfl, hi, by omega, by omega, Or.inl ⟨rfl, rfl⟩⟩

theorem replace_spec {s : HM F} (c : C s) {item : Nat} (hi : item ∈ all s) (hne : s.low.items ≠ []) (x : F) :
    ∃ s', replace s item x = .val s' ∧ C s' ∧ Same s s' ∧ (all s').Perm (all s) ∧ s'.mem.val = upd s.mem.val item x ∧
      ((s'.low.items.length = s.low.items.length ∧ s'.high.items.length = s.high.items.length ∧
          (item ∈ s.low.items → ∃ t ∈ s.low.items, x ≤ s.mem.val t)) ∨
       (s'.low.items.length + 1 = s.low.items.length ∧ s'.high.items.length = s.high.items.length + 1 ∧
          ∀ t ∈ s.low.items, s.mem.val t < x) ∨
       (s'.low.items.length = s.low.items.length + 1 ∧ s'.high.items.length + 1 = s.high.items.length)) := by
  obtain ⟨t, ht, ep, hmax⟩ := low_peek c hne
  unfold replace
  by_cases hl : item ∈ s.low.items
  · have hidl : s.mem.hid item = s.low.id := by
      obtain ⟨_, _, _, _, h⟩ := c.low.idx_of hl; exact h
    rw [if_pos hidl, ep, Go.val_bind]
    by_cases hx : x ≤ s.mem.val t
    · simp only [goLe_eq, decide_eq_true hx, if_true]
      obtain ⟨m', h', e, w, q1, q2, q3, q4, q5, q6⟩ := update_spec (by rw [c.lcmp]; exact swo_fmax) c.low hl x
      refine ⟨{ s with mem := m', low := h' }, by rw [e, Go.val_bind]; rfl, ?_, ⟨rfl, rfl⟩, q3.append_right _, q4, Or.inl ⟨q3.length_eq, rfl, fun _ => ⟨t, ht, hx⟩⟩⟩
      have hv : ∀ b ∈ s.high.items, m'.val b = s.mem.val b := fun b hb => by
        have : b ≠ item := fun e => c.disj item hl (e ▸ hb)
        rw [q4]; simp [upd, this]
      refine ⟨w, c.high.frame hv (fun b _ => by rw [q5]) (fun b hb => q6 b (fun h => c.disj b h hb)), q1.trans c.lid, c.hid,
        q2.trans c.lcmp, c.hcmp, fun b hb => c.disj b (q3.mem_iff.1 hb), ?_, ?_⟩
      · intro b hb
        exact c.fresh b ((q3.append_right s.high.items).mem_iff.1 hb)
      · intro b hb d hd
        show m'.val b ≤ m'.val d
        rw [hv d hd, q4]
        have hbl := q3.mem_iff.1 hb
        simp only [upd]
        split_ifs
        · exact le_trans hx (c.ord t ht d hd)
        · exact c.ord b hbl d hd
    · have hlt : s.mem.val t < x := lt_of_not_ge hx
      simp only [goLe_eq, decide_eq_false hx, goLt_eq, decide_eq_true hlt, if_true, Bool.false_eq_true, if_false]
      obtain ⟨m1, g, e1, w, q1, q2, q3, q4, q5, q6⟩ := remove_spec (by rw [c.lcmp]; exact swo_fmax) c.low hl
      have c1 := c.drop_low w q1 q2 q3 q4 q5 q6
      have hag : item ∉ g.items := (List.nodup_cons.1 (q3.nodup_iff.2 c.low.nodup)).1
      have hah : item ∉ s.high.items := c.disj item hl
      have c2 := c1.setVal (a := item) hag hah x
      obtain ⟨m2, l, e2, c3, p2, v2⟩ := push_high c2 (a := item) hag hah (c.fresh item hi)
        (fun b hb => by
          show upd m1.val item x b ≤ upd m1.val item x item
          have : b ≠ item := fun e => hag (e ▸ hb)
          simp only [upd, if_neg this, if_true, q4]
          exact le_trans (hmax b (q3.mem_iff.1 (List.mem_cons_of_mem _ hb))) (le_of_lt hlt))
      have hl3 := q3.length_eq
      have hl2 := p2.length_eq
      simp only [List.length_cons] at hl2 hl3
      refine ⟨_, by rw [e1, Go.val_bind]; simp only; rw [e2, Go.val_bind]; rfl, c3, ⟨rfl, rfl⟩, ?_, ?_, Or.inr (Or.inl ⟨?_, ?_, fun b hb => lt_of_le_of_lt (hmax b hb) hlt⟩)⟩
      · show (g.items ++ l.items).Perm (s.low.items ++ s.high.items)
        refine (p2.append_left _).trans ?_
        refine List.Perm.trans ?_ (q3.append_right s.high.items)
        exact List.perm_middle
      · exact v2.trans (by rw [q4])
      · simp only; omega
      · simp only; omega
  · have hh : item ∈ s.high.items := by
      simp only [all, List.mem_append] at hi; exact hi.resolve_left hl
    have hidl : ¬ s.mem.hid item = s.low.id := by
      obtain ⟨_, _, _, _, h⟩ := c.high.idx_of hh
      rw [h, c.hid, c.lid]; decide
    rw [if_neg hidl, ep, Go.val_bind]
    by_cases hx : s.mem.val t < x
    · simp only [goLt_eq, decide_eq_true hx, if_true]
      obtain ⟨m', h', e, w, q1, q2, q3, q4, q5, q6⟩ := update_spec (by rw [c.hcmp]; exact swo_fmin) c.high hh x
      refine ⟨{ s with mem := m', high := h' }, by rw [e, Go.val_bind]; rfl, ?_, ⟨rfl, rfl⟩, q3.append_left _, q4, Or.inl ⟨rfl, q3.length_eq, fun h => absurd h hl⟩⟩
      have hv : ∀ b ∈ s.low.items, m'.val b = s.mem.val b := fun b hb => by
        have : b ≠ item := fun e => hl (e ▸ hb)
        rw [q4]; simp [upd, this]
      refine ⟨c.low.frame hv (fun b _ => by rw [q5]) (fun b hb => q6 b (c.disj b hb)), w, c.lid, q1.trans c.hid,
        c.lcmp, q2.trans c.hcmp, fun b hb h => c.disj b hb (q3.mem_iff.1 h), ?_, ?_⟩
      · intro b hb
        exact c.fresh b ((q3.append_left s.low.items).mem_iff.1 hb)
      · intro b hb d hd
        show m'.val b ≤ m'.val d
        rw [hv b hb, q4]
        have hdl := q3.mem_iff.1 hd
        simp only [upd]
        split_ifs
        · exact le_trans (hmax b hb) (le_of_lt hx)
        · exact c.ord b hb d hdl
    · have hle : x ≤ s.mem.val t := le_of_not_gt hx
      simp only [goLt_eq, decide_eq_false hx, Bool.false_eq_true, if_false]
      obtain ⟨m1, g, e1, w, q1, q2, q3, q4, q5, q6⟩ := remove_spec (by rw [c.hcmp]; exact swo_fmin) c.high hh
      have c1 := c.drop_high w q1 q2 q3 q4 q5 q6
      have hag : item ∉ g.items := (List.nodup_cons.1 (q3.nodup_iff.2 c.high.nodup)).1
      have c2 := c1.setVal (a := item) hl hag x
      obtain ⟨m2, l, e2, c3, p2, v2⟩ := push_low c2 (a := item) hl hag (c.fresh item hi)
        (fun b hb => by
          show upd m1.val item x item ≤ upd m1.val item x b
          have : b ≠ item := fun e => hag (e ▸ hb)
          simp only [upd, if_neg this, if_true, q4]
          exact le_trans hle (c.ord t ht b (q3.mem_iff.1 (List.mem_cons_of_mem _ hb))))
      have hl3 := q3.length_eq
      have hl2 := p2.length_eq
      simp only [List.length_cons] at hl2 hl3
      refine ⟨_, by rw [e1, Go.val_bind]; simp only; rw [e2, Go.val_bind]; rfl, c3, ⟨rfl, rfl⟩, ?_, ?_, Or.inr (Or.inr ⟨?_, ?_⟩)⟩
      · show (l.items ++ g.items).Perm (s.low.items ++ s.high.items)
        refine (p2.append_right _).trans ?_
        refine List.Perm.trans ?_ (q3.append_left s.low.items)
        exact List.perm_middle.symm
      · exact v2.trans (by rw [q4])
      · simp only; omega
      · simp only; omega

/-! ## The run invariant, windows 0 and ≥ 2 -/

/-- What holds after any history whose values since the last `Clear` are `xs`. -/
structure I (w : Nat) (xs : List F) (s : HM F) : Prop where
  c : C s
  win : s.window = w
  lo : s.low.items.length ≤ s.high.items.length + 1
  hi : s.high.items.length ≤ s.low.items.length + 1
  lne : all s ≠ [] → s.low.items ≠ []
  size : (all s).length = (lastN w xs).length
  cap : s.queue.cap = Ring.roundUp w
  live : s.queue.disposed = false
  qmem : ∀ a ∈ s.queue.items, a ∈ all s
  qlen : w ≠ 0 → s.queue.items.length = (all s).length
  sub : content s ≤ (xs : Multiset F)
  last : ∀ ys x, xs = ys ++ [x] → x ∈ content s
  exact : w = 0 ∨ xs.length ≤ w → content s = (xs : Multiset F)

theorem wf_nil (m : Mem F) (id : String) (cmp : F → F → Bool) : WF m ⟨id, [], cmp⟩ :=
  ⟨List.nodup_nil, fun k a h => by simp at h, fun k _ h => absurd h (by simp)⟩

theorem C.clear {s : HM F} : C (clear s) :=
  ⟨wf_nil _ _ _, wf_nil _ _ _, rfl, rfl, rfl, rfl, by simp [HeapMedian.clear], by simp [HeapMedian.clear, all], by simp [HeapMedian.clear]⟩

theorem I.empty {s : HM F} {w : Nat} (hw : s.window = w) : I w ([] : List F) (clear s) := by
  exact ⟨C.clear, hw, by simp [clear], by simp [clear],
    by simp [clear, all], by simp [clear, all], by simp [clear, hw, Ring.new], rfl, by simp [clear, Ring.new], by simp [clear, Ring.new, all],
    by simp [clear, all, content], by simp, by simp [clear, all, content]⟩

theorem enqueue_spec {w : Nat} {s : HM F} (hw : s.window = w) (hcap : s.queue.cap = Ring.roundUp w) (hlive : s.queue.disposed = false)
    (hlt : w ≠ 0 → s.queue.items.length < w) (item : Nat) :
    ∃ q, enqueue s item = .val ({ s with queue := q }, none) ∧ q.cap = Ring.roundUp w ∧ q.disposed = false ∧
      (w = 0 → q = s.queue) ∧ (w ≠ 0 → q.items = s.queue.items ++ [item]) := by
  by_cases h : w = 0
  · exact ⟨s.queue, if_neg (by simp [hw, h]), hcap, hlive, fun _ => rfl, fun c => absurd h c⟩
  · have := Ring.put_ok hlive (lt_of_lt_of_le (hlt h) (hcap ▸ Ring.le_roundUp w)) item
    refine ⟨{ s.queue with items := s.queue.items ++ [item] }, ?_, hcap, hlive, fun c => absurd c h, fun _ => rfl⟩
    unfold enqueue
    rw [if_pos (by rw [hw]; exact_mod_cast h), this]

theorem content_perm {s s' : HM F} (hp : (all s').Perm (all s)) (hv : s'.mem.val = s.mem.val) : content s' = content s := by
  rw [content, hv]; exact Multiset.coe_eq_coe.2 (hp.map _)

theorem all_length (s : HM F) : (all s).length = s.low.items.length + s.high.items.length := by simp [all]

/-- One push, windows 0 and at least 2. -/
theorem I.push {w : Nat} {xs : List F} {s : HM F} (h : I w xs s) (hw : w ≠ 1) (x : F) :
    ∃ s', push s x = .val (s', none) ∧ I w (xs ++ [x]) s' := by
  have hsz := h.size
  have hal := all_length s
  by_cases hfull : w ≠ 0 ∧ s.queue.items.length = w
  · -- eviction
    obtain ⟨hw0, hq⟩ := hfull
    have hlen : (all s).length = w := (h.qlen hw0).symm.trans hq
    obtain ⟨a, q, hqe⟩ : ∃ a q, s.queue.items = a :: q := by
      match hh : s.queue.items with
      | [] => rw [hh] at hq; simp at hq; omega
      | a :: q => exact ⟨a, q, rfl⟩
    have ha : a ∈ all s := h.qmem a (by simp [hqe])
    have hlow := h.lo; have hhigh := h.hi
    have hlne : s.low.items ≠ [] := h.lne (by intro e; rw [e] at hlen; simp at hlen; omega)
    obtain ⟨s1, e1, c1, m1, p1, v1, l1⟩ := replace_spec (h.c.queue { s.queue with items := q }) (item := a) ha hlne x
    have p1' : (all s1).Perm (all s) := p1
    have hal1 := all_length s1
    have hpl1 := p1'.length_eq
    obtain ⟨s2, it, e2, c2, m2, p2, v2, hit, l2, r2, d2⟩ := rebalance_spec c1 (item := a) (p1.mem_iff.2 ha) (by
      simp only at l1
      rcases l1 with ⟨l1, l2, -⟩ | ⟨l1, l2, -⟩ | ⟨l1, l2⟩ <;> constructor <;> omega)
    have hal2 := all_length s2
    have hpl2 := p2.length_eq
    have hqs : s2.queue = { s.queue with items := q } := m2.2.trans m1.2
    have hws : s2.window = w := m2.1.trans (m1.1.trans h.win)
    have hql : q.length + 1 = w := by rw [hqe] at hq; simpa using hq
    obtain ⟨qq, e3, k1, k2, -, k4⟩ := enqueue_spec (s := s2) hws (by rw [hqs]; exact h.cap) (by rw [hqs]; exact h.live)
      (by intro _; rw [hqs]; simp only; omega) it
    have hcont : content s2 = x ::ₘ (content s).erase (s.mem.val a) := by
      rw [content_perm p2 v2, content, v1]
      rw [Multiset.coe_eq_coe.2 (p1'.map _)]
      exact content_upd h.c.nodup ha _ _
    have hfl : (lastN w xs).length = w := by rw [← hsz, hlen]
    refine ⟨_, ?_, ⟨c2.queue qq, hws, l2, r2, ?_, ?_, k1, k2, ?_, ?_, ?_, ?_, ?_⟩⟩
    · unfold HeapMedian.push
      rw [if_pos ⟨by rw [h.win]; exact_mod_cast hw0, by rw [h.win]; exact_mod_cast hq⟩]
      have : s.queue.get = .val (.ok (a, { s.queue with items := q })) := Ring.get_ok h.live hqe
      rw [this]
      simp only
      rw [e1, Go.val_bind, e2, Go.val_bind, e3]
    · intro _ e
      have e : s2.low.items = [] := e
      rw [e] at l2 r2 hal2; simp at l2 r2 hal2; omega
    · show (all s2).length = _
      rw [lastN_snoc_full hw0 xs x hfl]
      simp; omega
    · intro b hb
      rw [k4 hw0, hqs] at hb
      simp only [List.mem_append, List.mem_singleton] at hb
      show b ∈ all s2
      rw [p2.mem_iff]
      rcases hb with hb | rfl
      · exact p1'.mem_iff.2 (h.qmem b (by simp [hqe, hb]))
      · exact hit
    · intro _
      rw [k4 hw0, hqs]
      show (q ++ [it]).length = (all s2).length
      simp; omega
    · show content s2 ≤ _
      rw [hcont, ← Multiset.coe_add, add_comm]
      exact Multiset.cons_le_cons x (le_trans (Multiset.erase_le _ _) h.sub)
    · intro ys y e
      obtain ⟨-, e⟩ := List.append_inj' e rfl
      cases e
      show x ∈ content s2
      rw [hcont]; exact Multiset.mem_cons_self _ _
    · intro hc
      have := lastN_length w xs
      rw [if_neg hw0] at this
      simp at hc; omega
  · -- insertion
    obtain ⟨s1, it1, e1, c1, m1, p1, ct1, l1⟩ := insert_spec h.c (fun e => by
      by_contra hne
      exact h.lne (by simp [all, hne]) e) x
    have hlow := h.lo; have hhigh := h.hi
    have hal1 := all_length s1
    have hpl1 := p1.length_eq
    obtain ⟨s2, it, e2, c2, m2, p2, v2, hit, l2, r2, d2⟩ := rebalance_spec c1 (item := it1) (p1.mem_iff.2 (by simp)) (by
      rcases l1 with ⟨l1, l2⟩ | ⟨l1, l2, -⟩ <;> constructor <;> omega)
    have hal2 := all_length s2
    have hpl2 := p2.length_eq
    have hqs : s2.queue = s.queue := m2.2.trans m1.2
    have hws : s2.window = w := m2.1.trans (m1.1.trans h.win)
    have hroom : w ≠ 0 → (lastN w xs).length ≠ w := by
      intro h0 e; exact hfull ⟨h0, by rw [h.qlen h0, hsz, e]⟩
    obtain ⟨qq, e3, k1, k2, k3, k4⟩ := enqueue_spec (s := s2) hws (by rw [hqs]; exact h.cap) (by rw [hqs]; exact h.live)
      (by
        intro h0
        rw [hqs, h.qlen h0, hsz]
        exact lt_of_le_of_ne (lastN_length_le h0 xs) (hroom h0)) it
    have hcont : content s2 = x ::ₘ content s := by rw [content_perm p2 v2, ct1]
    refine ⟨_, ?_, ⟨c2.queue qq, hws, l2, r2, ?_, ?_, k1, k2, ?_, ?_, ?_, ?_, ?_⟩⟩
    · unfold HeapMedian.push
      rw [if_neg (by
        rintro ⟨h1, h2⟩
        rw [h.win] at h1 h2
        exact hfull ⟨by exact_mod_cast h1, by exact_mod_cast h2⟩)]
      rw [e1, Go.val_bind, e2, Go.val_bind, e3]
    · intro _ e
      have e : s2.low.items = [] := e
      rw [e] at l2 r2 hal2 d2; simp at l2 r2 hal2 d2 hpl1
      rcases l1 with ⟨l1, l3⟩ | ⟨l1, l3, l4⟩
      · omega
      · have := List.length_pos_iff.2 l4; omega
    · show (all s2).length = _
      by_cases h0 : w = 0
      · subst h0
        rw [lastN_zero] at hsz ⊢
        simp at hpl1 ⊢; omega
      · rw [lastN_snoc_room h0 xs x (hroom h0)]
        simp at hpl1 ⊢; omega
    · intro b hb
      show b ∈ all s2
      rw [p2.mem_iff]
      by_cases h0 : w = 0
      · rw [k3 h0, hqs] at hb
        exact p1.mem_iff.2 (List.mem_cons_of_mem _ (h.qmem b hb))
      · rw [k4 h0, hqs] at hb
        simp only [List.mem_append, List.mem_singleton] at hb
        rcases hb with hb | rfl
        · exact p1.mem_iff.2 (List.mem_cons_of_mem _ (h.qmem b hb))
        · exact hit
    · intro h0
      rw [k4 h0, hqs]
      show (s.queue.items ++ [it]).length = (all s2).length
      have := h.qlen h0
      simp at hpl1 ⊢; omega
    · show content s2 ≤ _
      rw [hcont, ← Multiset.coe_add, add_comm]
      exact Multiset.cons_le_cons x h.sub
    · intro ys y e
      obtain ⟨-, e⟩ := List.append_inj' e rfl
      cases e
      show x ∈ content s2
      rw [hcont]; exact Multiset.mem_cons_self _ _
    · intro hc
      show content s2 = _
      rw [hcont, ← Multiset.coe_add, add_comm, h.exact (hc.imp_right (fun hc => by simp at hc; omega))]
      rfl

theorem run_inv {w : Nat} (hw : w ≠ 1) (zero : F) (ops : List (MOp F)) :
    ∃ s, run (fresh zero w) ops = .val (s, []) ∧ I w (since ops) s := by
  induction ops using List.reverseRecOn with
  | nil => exact ⟨_, rfl, I.empty (s := fresh zero w) rfl⟩
  | append_singleton ops o ih =>
    obtain ⟨s, e, hi⟩ := ih
    unfold run at e ⊢
    rw [Go.runOps_append, e]
    cases o with
    | push x =>
      obtain ⟨s', e', hi'⟩ := hi.push hw x
      refine ⟨s', ?_, by rw [since_push]; exact hi'⟩
      simp [Go.runOps, logged, step, e']
    | clear =>
      refine ⟨clear s, ?_, by rw [since_clear]; exact I.empty hi.win⟩
      simp [Go.runOps, logged, step]

end

section
variable {K : Type} [Field K] [LinearOrder K] [FloorRing K]

theorem filter_map_card_le (l : List Nat) (v : Nat → K) (p : K → Prop) [DecidablePred p] :
    (Multiset.filter p ((l.map v : List K) : Multiset K)).card ≤ l.length :=
  le_trans (Multiset.card_le_card (Multiset.filter_le _ _)) (by simp)

theorem filter_map_card_eq {l : List Nat} {v : Nat → K} {p : K → Prop} [DecidablePred p] (h : ∀ a ∈ l, p (v a)) :
    (Multiset.filter p ((l.map v : List K) : Multiset K)).card = l.length := by
  rw [Multiset.filter_eq_self.2]
  · simp
  · intro b hb
    simp only [Multiset.mem_coe, List.mem_map] at hb
    obtain ⟨a, ha, rfl⟩ := hb
    exact h a ha

theorem filter_map_card_zero {l : List Nat} {v : Nat → K} {p : K → Prop} [DecidablePred p] (h : ∀ a ∈ l, ¬ p (v a)) :
    (Multiset.filter p ((l.map v : List K) : Multiset K)).card = 0 := by
  rw [Multiset.filter_eq_nil.2]
  · simp
  · intro b hb
    simp only [Multiset.mem_coe, List.mem_map] at hb
    obtain ⟨a, ha, rfl⟩ := hb
    exact h a ha

theorem filter_map_card_pos {l : List Nat} {v : Nat → K} {p : K → Prop} [DecidablePred p] {a : Nat} (ha : a ∈ l) (h : p (v a)) :
    1 ≤ (Multiset.filter p ((l.map v : List K) : Multiset K)).card :=
  Multiset.card_pos_iff_exists_mem.2 ⟨v a, by simp only [Multiset.mem_filter, Multiset.mem_coe, List.mem_map]; exact ⟨⟨a, ha, rfl⟩, h⟩⟩

theorem filter_map_card_lt {l : List Nat} {v : Nat → K} {p : K → Prop} [DecidablePred p] {a : Nat} (ha : a ∈ l) (h : ¬ p (v a)) :
    (Multiset.filter p ((l.map v : List K) : Multiset K)).card + 1 ≤ l.length := by
  have h1 : (Multiset.filter p ((l.map v : List K) : Multiset K)).card + (Multiset.filter (fun x => ¬ p x) ((l.map v : List K) : Multiset K)).card
      = l.length := by
    rw [← Multiset.card_add, Multiset.filter_add_not]; simp
  have h2 := filter_map_card_pos (p := fun x => ¬ p x) (v := v) ha h
  omega

theorem content_eq (s : HM K) : content s = ((s.low.items.map s.mem.val : List K) : Multiset K) + ((s.high.items.map s.mem.val : List K) : Multiset K) := by
  simp [content, all]

theorem low_top_kth {s : HM K} (c : C s) {a : Nat} (ha : a ∈ s.low.items) (hmax : ∀ b ∈ s.low.items, s.mem.val b ≤ s.mem.val a) {i : Nat}
    (hi : s.low.items.length = i + 1) : IsKth (content s) i (s.mem.val a) := by
  refine ⟨?_, ?_, ?_⟩
  · rw [content_eq]; exact Multiset.mem_add.2 (Or.inl (by simp only [Multiset.mem_coe, List.mem_map]; exact ⟨a, ha, rfl⟩))
  · rw [content_eq, Multiset.filter_add, Multiset.card_add]
    have h1 := filter_map_card_lt (p := fun x => x < s.mem.val a) (v := s.mem.val) ha (lt_irrefl _)
    have h2 := filter_map_card_zero (p := fun x => x < s.mem.val a) (v := s.mem.val) (l := s.high.items)
      (fun b hb => not_lt_of_ge (c.ord a ha b hb))
    omega
  · rw [content_eq, Multiset.filter_add, Multiset.card_add]
    have h1 := filter_map_card_eq (p := fun x => x ≤ s.mem.val a) (v := s.mem.val) hmax
    omega

theorem high_top_kth {s : HM K} (c : C s) {a : Nat} (ha : a ∈ s.high.items) (hmin : ∀ b ∈ s.high.items, s.mem.val a ≤ s.mem.val b) {i : Nat}
    (hi : s.low.items.length = i) : IsKth (content s) i (s.mem.val a) := by
  refine ⟨?_, ?_, ?_⟩
  · rw [content_eq]; exact Multiset.mem_add.2 (Or.inr (by simp only [Multiset.mem_coe, List.mem_map]; exact ⟨a, ha, rfl⟩))
  · rw [content_eq, Multiset.filter_add, Multiset.card_add]
    have h1 := filter_map_card_le s.low.items s.mem.val (fun x => x < s.mem.val a)
    have h2 := filter_map_card_zero (p := fun x => x < s.mem.val a) (v := s.mem.val) (l := s.high.items)
      (fun b hb => not_lt_of_ge (hmin b hb))
    omega
  · rw [content_eq, Multiset.filter_add, Multiset.card_add]
    have h1 := filter_map_card_eq (p := fun x => x ≤ s.mem.val a) (v := s.mem.val) (l := s.low.items) (fun b hb => c.ord b hb a ha)
    have h2 := filter_map_card_pos (p := fun x => x ≤ s.mem.val a) (v := s.mem.val) ha (le_refl _)
    omega

/-- The median of `S` in the given arithmetic. -/
def MedianIn (O : FOps K) (S : Multiset K) (v : K) : Prop :=
  (∃ i : Nat, S.card = 2 * i + 1 ∧ IsKth S i v) ∨
  ∃ (i : Nat) (a b : K), S.card = 2 * i + 2 ∧ IsKth S i a ∧ IsKth S (i + 1) b ∧ v = O.div (O.add a b) (O.ofInt 2)

/-- `Value` on balanced heaps, in any arithmetic. -/
theorem value_in (O : FOps K) {s : HM K} (c : C s) (lo : s.low.items.length ≤ s.high.items.length + 1)
    (hi : s.high.items.length ≤ s.low.items.length + 1) :
    (all s = [] → value O s = .val (.error "no values seen yet")) ∧
    (all s ≠ [] → ∃ v, value O s = .val (.ok v) ∧ MedianIn O (content s) v) := by
  have hcard : (content s).card = s.low.items.length + s.high.items.length := by simp [content_eq]
  constructor
  · intro h
    simp only [all, List.append_eq_nil_iff] at h
    exact if_pos (by simp [Heap.len, h.1, h.2])
  · intro h
    have hpos : s.low.items.length + s.high.items.length ≠ 0 := by
      intro e; apply h
      rw [all, List.append_eq_nil_iff]
      exact ⟨List.length_eq_zero_iff.1 (by omega), List.length_eq_zero_iff.1 (by omega)⟩
    unfold value
    rw [if_neg (by simpa [Heap.len] using hpos)]
    by_cases h1 : s.low.len < s.high.len
    · rw [if_pos h1]
      simp only [Heap.len] at h1
      obtain ⟨a, ha, e, hm⟩ := high_peek c (by intro e; simp [e] at h1)
      refine ⟨s.mem.val a, by rw [e]; rfl, Or.inl ⟨s.low.items.length, by omega, high_top_kth c ha hm rfl⟩⟩
    · rw [if_neg h1]
      simp only [Heap.len] at h1
      obtain ⟨a, ha, e, hm⟩ := low_peek c (by intro e; simp [e] at h1 hpos; simp [h1] at hpos)
      by_cases h2 : s.low.len > s.high.len
      · rw [if_pos h2]
        simp only [Heap.len] at h2
        refine ⟨s.mem.val a, by rw [e]; rfl, Or.inl ⟨s.high.items.length, by omega, low_top_kth c ha hm (by omega)⟩⟩
      · rw [if_neg h2]
        simp only [Heap.len] at h2
        obtain ⟨b, hb, e', hm'⟩ := high_peek c (by intro e; simp [e] at h1 h2 hpos; simp [h2] at hpos)
        refine ⟨O.div (O.add (s.mem.val a) (s.mem.val b)) (O.ofInt 2), by rw [e, e']; simp, Or.inr ⟨s.low.items.length - 1, s.mem.val a, s.mem.val b,
          by omega, low_top_kth c ha hm (by omega), high_top_kth c hb hm' (by omega), rfl⟩⟩

/-- `Value` on balanced heaps. -/
theorem value_spec {s : HM K} (c : C s) (lo : s.low.items.length ≤ s.high.items.length + 1)
    (hi : s.high.items.length ≤ s.low.items.length + 1) :
    (all s = [] → value (Quant.exact K) s = .val (.error "no values seen yet")) ∧
    (all s ≠ [] → ∃ v, value (Quant.exact K) s = .val (.ok v) ∧ IsMedian (content s) v) := by
  obtain ⟨h1, h2⟩ := value_in (Quant.exact K) c lo hi
  refine ⟨h1, fun h => ?_⟩
  obtain ⟨v, e, h | ⟨i, a, b, h3, h4, h5, h6⟩⟩ := h2 h
  · exact ⟨v, e, Or.inl h⟩
  · exact ⟨v, e, Or.inr ⟨i, a, b, h3, h4, h5, by rw [h6]; simp [Quant.exact]⟩⟩

end

/-! ## Window 1 -/

section
variable {F : Type} [LinearOrder F]

/-- The shape after the values `xs`, window 1. -/
structure I1 (xs : List F) (s : HM F) : Prop where
  c : C s
  win : s.window = 1
  cap : s.queue.cap = Ring.roundUp 1
  live : s.queue.disposed = false
  shape : (xs = [] ∧ all s = [] ∧ s.queue.items = []) ∨
    ∃ ys x a, xs = ys ++ [x] ∧ all s = [a] ∧ s.queue.items = [a] ∧ s.mem.val a = x ∧
      (s.low.items = [a] ∧ (∀ zs y, ys = zs ++ [y] → x ≤ y) ∨ s.high.items = [a] ∧ ∃ zs y, ys = zs ++ [y] ∧ y < x)

theorem I1.empty {s : HM F} (hw : s.window = 1) : I1 ([] : List F) (clear s) :=
  ⟨C.clear, hw, by simp [clear, hw, Ring.new], rfl, Or.inl ⟨rfl, by simp [clear, all], rfl⟩⟩

theorem I1.push {xs : List F} {s : HM F} (h : I1 xs s) (x : F) :
    ((∀ zs y z, xs = zs ++ [y, z] → z ≤ y) → ∃ s', push s x = .val (s', none) ∧ I1 (xs ++ [x]) s') ∧
    ((∃ zs y z, xs = zs ++ [y, z] ∧ y < z) → push s x = .panic) := by
  rcases h.shape with ⟨rfl, ha, hq⟩ | ⟨ys, v, a, rfl, ha, hq, hv, hs⟩
  · refine ⟨fun _ => ?_, fun ⟨zs, y, z, h, _⟩ => by simp at h⟩
    have ha' := ha
    simp only [all, List.append_eq_nil_iff] at ha'
    obtain ⟨s1, it1, e1, c1, m1, p1, ct1, l1⟩ := insert_spec h.c (fun _ => ha'.2) x
    rw [ha] at p1
    have hl : s1.low.items.length = 1 ∧ s1.high.items.length = 0 := by
      rcases l1 with l1 | ⟨_, _, l1⟩
      · rw [ha'.1, ha'.2] at l1; exact l1
      · exact absurd ha'.1 l1
    have hh : s1.high.items = [] := List.length_eq_zero_iff.1 hl.2
    have hall : all s1 = [it1] := List.perm_singleton.1 p1
    have hlow : s1.low.items = [it1] := by simpa [all, hh] using hall
    have e2 : rebalance s1 it1 = .val (s1, it1) := by
      unfold rebalance
      rw [if_neg (by simp [Heap.len, hh]), if_neg (by simp [Heap.len, hl])]; rfl
    obtain ⟨qq, e3, k1, k2, -, k4⟩ := enqueue_spec (s := s1) (w := 1) (m1.1.trans h.win) (by rw [m1.2]; exact h.cap)
      (by rw [m1.2]; exact h.live) (by intro _; rw [m1.2, hq]; simp) it1
    refine ⟨{ s1 with queue := qq }, ?_, c1.queue qq, m1.1.trans h.win, k1, k2, Or.inr ⟨[], x, it1, rfl, hall, ?_, ?_, Or.inl ⟨hlow, ?_⟩⟩⟩
    · unfold HeapMedian.push
      rw [if_neg (by rw [h.win]; simp [Ring.len, hq]), e1, Go.val_bind, e2, Go.val_bind, e3]
    · show qq.items = _
      rw [k4 (by decide), m1.2, hq]; rfl
    · have : content s1 = {x} := by rw [ct1, content, ha]; rfl
      simpa [content, hall] using this
    · intro zs y e; simp at e
  · have hfull : s.window ≠ 0 ∧ (s.queue.len : Int) = s.window := by rw [h.win]; simp [Ring.len, hq]
    have hget : s.queue.get = .val (.ok (a, { s.queue with items := [] })) := Ring.get_ok h.live hq
    rcases hs with ⟨hlow, hmono⟩ | ⟨hhigh, zs, y, rfl, hlt⟩
    · refine ⟨fun _ => ?_, fun ⟨zs, y, z, e, hl⟩ => ?_⟩
      · have hhigh : s.high.items = [] := by simpa [all, hlow] using ha
        obtain ⟨s1, e1, c1, m1, p1, v1, l1⟩ := replace_spec (h.c.queue { s.queue with items := [] }) (item := a)
          (by show a ∈ all s; simp [ha]) (by show s.low.items ≠ []; simp [hlow]) x
        have p1 : (all s1).Perm (all s) := p1
        rw [ha] at p1
        have hall : all s1 = [a] := List.perm_singleton.1 p1
        simp only [hlow, hhigh] at l1
        have e2 : rebalance s1 a = .val (s1, a) := by
          unfold rebalance
          have : s1.low.len + s1.high.len = 1 := by
            have := all_length s1
            rw [hall] at this; simp [Heap.len] at this ⊢; omega
          rw [if_neg (by omega), if_neg (by omega)]; rfl
        have hq1 : s1.queue.items = [] := by rw [m1.2]
        obtain ⟨qq, e3, k1, k2, -, k4⟩ := enqueue_spec (s := s1) (w := 1) (m1.1.trans h.win) (by rw [m1.2]; exact h.cap)
          (by rw [m1.2]; exact h.live) (by intro _; rw [hq1]; simp) a
        refine ⟨{ s1 with queue := qq }, ?_, c1.queue qq, m1.1.trans h.win, k1, k2, Or.inr ⟨ys ++ [v], x, a, rfl, hall, ?_, ?_, ?_⟩⟩
        · unfold HeapMedian.push
          rw [if_pos hfull, hget]
          simp only
          rw [e1, Go.val_bind, e2, Go.val_bind, e3]
        · show qq.items = _
          rw [k4 (by decide), hq1]; rfl
        · show s1.mem.val a = x
          rw [v1]; simp [upd]
        · rcases l1 with ⟨l1, l2, l3⟩ | ⟨l1, l2, l3⟩ | ⟨l1, l2⟩
          · have hh : s1.high.items = [] := List.length_eq_zero_iff.1 (by simpa using l2)
            refine Or.inl ⟨by simpa [all, hh] using hall, ?_⟩
            intro zs y e
            obtain ⟨-, e⟩ := List.append_inj' e rfl
            cases e
            obtain ⟨t, ht, hx⟩ := l3 (by simp)
            simp at ht; subst ht
            rw [← hv]; exact hx
          · have hh : s1.low.items = [] := List.length_eq_zero_iff.1 (by simp at l1; simpa using l1)
            refine Or.inr ⟨by simpa [all, hh] using hall, ys, v, rfl, ?_⟩
            rw [← hv]; exact l3 a (by simp)
          · simp at l2
      · have : ys ++ [v] = (zs ++ [y]) ++ [z] := by rw [e]; simp
        obtain ⟨e1, e2⟩ := List.append_inj' this rfl
        cases e2
        exact absurd (hmono zs y e1) (not_le_of_gt hl)
    · have hlow : s.low.items = [] := by
        have := congrArg List.length ha
        rw [all_length, hhigh] at this
        exact List.length_eq_zero_iff.1 (by simpa using this)
      refine ⟨fun hm => absurd (hm zs y v (by simp)) (not_le_of_gt hlt), fun _ => ?_⟩
      unfold HeapMedian.push
      rw [if_pos hfull, hget]
      simp only
      have hp : peek s.mem s.low = .panic := by simp [peek, hlow]
      have hr : replace { s with queue := { s.queue with items := [] } } a x = .panic := by
        unfold replace
        simp only [hp, Go.panic_bind, ite_self]
      rw [hr]; rfl

theorem since_snoc {ops : List (MOp F)} {ys : List F} {x : F} (h : since ops = ys ++ [x]) :
    ∃ pre, ops = pre ++ [.push x] ∧ since pre = ys := by
  induction ops using List.reverseRecOn with
  | nil => simp at h
  | append_singleton ops o ih =>
    cases o with
    | clear => rw [since_clear] at h; simp at h
    | push y =>
      rw [since_push] at h
      obtain ⟨h1, h2⟩ := List.append_inj' h rfl
      cases h2
      exact ⟨ops, rfl, h1⟩

/-- The history contains a push directly after a pair of increasing pushes. -/
def PushAfterRise (ops : List (MOp F)) : Prop :=
  ∃ (pre : List (MOp F)) (x y z : F) (post : List (MOp F)), ops = pre ++ [.push x, .push y, .push z] ++ post ∧ x < y

theorem run_one (zero : F) (ops : List (MOp F)) :
    (¬ PushAfterRise ops → ∃ s, run (fresh zero 1) ops = .val (s, []) ∧ I1 (since ops) s) ∧
    (PushAfterRise ops → run (fresh zero 1) ops = .panic) := by
  induction ops using List.reverseRecOn with
  | nil =>
    refine ⟨fun _ => ⟨_, rfl, I1.empty (s := fresh zero 1) rfl⟩, fun ⟨_, _, _, _, _, h, _⟩ => ?_⟩
    simp at h
  | append_singleton ops o ih =>
    have hmono : PushAfterRise ops → PushAfterRise (ops ++ [o]) := by
      rintro ⟨pre, x, y, z, post, rfl, h⟩
      exact ⟨pre, x, y, z, post ++ [o], by simp, h⟩
    have hinv : PushAfterRise (ops ++ [o]) → PushAfterRise ops ∨ ∃ pre x y z, o = .push z ∧ ops = pre ++ [.push x, .push y] ∧ x < y := by
      rintro ⟨pre, x, y, z, post, h, hlt⟩
      rcases List.eq_nil_or_concat post with rfl | ⟨post, o', rfl⟩
      · right
        have : ops ++ [o] = (pre ++ [.push x, .push y]) ++ [.push z] := by rw [h]; simp
        obtain ⟨h1, h2⟩ := List.append_inj' this rfl
        cases h2
        exact ⟨pre, x, y, z, rfl, h1, hlt⟩
      · left
        have : ops ++ [o] = (pre ++ [.push x, .push y, .push z] ++ post) ++ [o'] := by rw [h]; simp
        obtain ⟨h1, -⟩ := List.append_inj' this rfl
        exact ⟨pre, x, y, z, post, h1, hlt⟩
    unfold run at ih ⊢
    by_cases hr : PushAfterRise ops
    · refine ⟨fun c => absurd (hmono hr) c, fun _ => ?_⟩
      rw [Go.runOps_append, ih.2 hr]
    · obtain ⟨s, e, hi⟩ := ih.1 hr
      rw [Go.runOps_append, e]
      cases o with
      | clear =>
        refine ⟨fun _ => ⟨clear s, by simp [Go.runOps, logged, step], by rw [since_clear]; exact I1.empty hi.win⟩, fun h => ?_⟩
        rcases hinv h with h | ⟨_, _, _, _, h, _⟩
        · exact absurd h hr
        · cases h
      | push x =>
        have hp := hi.push x
        constructor
        · intro hn
          obtain ⟨s', e', hi'⟩ := hp.1 (by
            intro zs y z hz
            by_contra c
            obtain ⟨pre, h1, h2⟩ := since_snoc (ys := zs ++ [y]) (x := z) (by rw [hz]; simp)
            obtain ⟨pre2, h3, -⟩ := since_snoc h2
            exact hn ⟨pre2, y, z, x, [], by rw [h1, h3]; simp, not_le.1 c⟩)
          exact ⟨s', by simp [Go.runOps, logged, step, e'], by rw [since_push]; exact hi'⟩
        · intro h
          rcases hinv h with h | ⟨pre, a, b, z, h1, h2, h3⟩
          · exact absurd h hr
          · have e' := hp.2 ⟨since pre, a, b, by
              rw [h2]
              have : pre ++ [MOp.push a, .push b] = (pre ++ [.push a]) ++ [.push b] := by simp
              rw [this, since_push, since_push]; simp, h3⟩
            simp [Go.runOps, logged, step, e']

end

end Verif.HeapMedian
