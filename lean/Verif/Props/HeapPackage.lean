import Verif.Proofs.HeapOps
import Mathlib.Data.List.Nodup
import Mathlib.Data.List.Perm.Basic

/-! # C24 for the package `heap` on its own: `New`, `Push`, `Pop`, `Peek`, `Update` and `Remove` with any comparison and any items -/

namespace Verif.Props
open Verif Verif.Heap

variable {F : Type}

/-- What a user of the package expects: the heap holds exactly the items `s` (address and value), every item records its own position and its
heap, and no item comes before its parent. -/
structure Holds (cmp : F → F → Bool) (m : Mem F) (h : Heap F) (s : List (Nat × F)) : Prop where
  same : h.cmp = cmp
  once : (s.map (·.1)).Nodup
  items : h.items.Perm (s.map (·.1))
  val : ∀ p ∈ s, m.val p.1 = p.2
  pos : ∀ (k a : Nat), h.items[k]? = some a → m.idx a = k ∧ m.hid a = h.id
  ord : ∀ (k a p : Nat), 0 < k → h.items[k]? = some a → h.items[(k - 1) / 2]? = some p → cmp (m.val a) (m.val p) = false

/-- An operation on a heap: `heapops.Push` of the item at address `a` with value `x`, `heapops.Pop`, `Remove` and `Update`. -/
inductive HeapOp (F : Type) where
  | push (a : Nat) (x : F)
  | pop
  | remove (a : Nat)
  | update (a : Nat) (x : F)

/-- The operation makes sense: a pushed item is not in the heap yet, a removed or updated one is, and a heap that is popped is not empty. -/
def HeapOp.Enabled (s : List (Nat × F)) : HeapOp F → Prop
  | .push a _ => a ∉ s.map (·.1)
  | .pop => s ≠ []
  | .remove a => a ∈ s.map (·.1)
  | .update a _ => a ∈ s.map (·.1)

/-- What the operation should do to the items. -/
def HeapOp.Effect (cmp : F → F → Bool) (s : List (Nat × F)) : HeapOp F → List (Nat × F) → Prop
  | .push a x, s' => s' = (a, x) :: s
  | .pop, s' => ∃ p, s.Perm (p :: s') ∧ ∀ q ∈ s, cmp q.2 p.2 = false
  | .remove a, s' => ∃ x, s.Perm ((a, x) :: s')
  | .update a y, s' => ∃ x r, s.Perm ((a, x) :: r) ∧ s' = (a, y) :: r

/-- The operation of the model. -/
def HeapOp.exec (m : Mem F) (h : Heap F) : HeapOp F → Go (Mem F × Heap F)
  | .push a x => Heap.push { m with val := upd m.val a x } h a
  | .pop => Heap.pop m h >>= fun r => .val r.2
  | .remove a => Heap.remove m h a
  | .update a x => Heap.update m h a x

theorem Holds.wf {cmp : F → F → Bool} {m : Mem F} {h : Heap F} {s : List (Nat × F)} (H : Holds cmp m h s) : WF m h where
  nodup := H.items.nodup_iff.2 H.once
  book := H.pos
  heap := by
    intro k hk hn _
    have h1 : (k - 1) / 2 < h.items.length := by omega
    rw [H.same]
    have := H.ord k h.items[k] h.items[(k - 1) / 2] hk (List.getElem?_eq_getElem hn) (List.getElem?_eq_getElem h1)
    simpa [pv, List.getD_eq_getElem?_getD, List.getElem?_eq_getElem hn, List.getElem?_eq_getElem h1] using this

theorem Holds.of {cmp : F → F → Bool} {m : Mem F} {h : Heap F} {s : List (Nat × F)} (w : WF m h) (hc : h.cmp = cmp) (hp : h.items.Perm (s.map (·.1)))
    (hv : ∀ p ∈ s, m.val p.1 = p.2) : Holds cmp m h s where
  same := hc
  once := hp.nodup_iff.1 w.nodup
  items := hp
  val := hv
  pos := w.book
  ord := by
    intro k a p hk ha hpa
    have hn : k < h.items.length := by
      by_contra c
      rw [List.getElem?_eq_none (by omega)] at ha
      cases ha
    have := w.heap k hk hn (Nat.zero_le _)
    rw [hc] at this
    simpa [pv, List.getD_eq_getElem?_getD, ha, hpa] using this

/-- The items with a given address taken out. -/
theorem split_at {s : List (Nat × F)} {a : Nat} (h : a ∈ s.map (·.1)) : ∃ x r, s.Perm ((a, x) :: r) := by
  obtain ⟨p, hp, rfl⟩ := List.mem_map.1 h
  obtain ⟨l₁, l₂, rfl⟩ := List.append_of_mem hp
  exact ⟨p.2, l₁ ++ l₂, List.perm_middle⟩

/-- C24, `New`: the heap holds exactly the given values, at the addresses `base`, `base + 1`, ... -/
theorem C24_heap_new (m : Mem F) (base : Nat) (id : String) (vals : List F) {cmp : F → F → Bool} (hc : SWO cmp) :
    ∃ m' h', new m base id vals cmp = .val (m', h') ∧ h'.id = id ∧
      Holds cmp m' h' ((List.range vals.length).zipWith (fun i x => (base + i, x)) vals) := by
  obtain ⟨m', h', e, w, h1, h2, hi, hv⟩ := new_items m base id vals hc
  refine ⟨m', h', e, h1, Holds.of w h2 ?_ ?_⟩
  · refine hi.trans (List.Perm.of_eq ?_)
    apply List.ext_getElem?
    intro k
    simp only [List.getElem?_map, List.getElem?_zipWith]
    by_cases hk : k < vals.length
    · simp [List.getElem?_range hk, List.getElem?_eq_getElem hk]
    · simp [List.getElem?_eq_none (show (List.range vals.length).length ≤ k by simp; omega)]
  · intro p hp
    obtain ⟨k, hk, rfl⟩ := List.getElem_of_mem hp
    simp only [List.length_zipWith, List.length_range, Nat.min_self] at hk
    simp [hv, List.getElem?_eq_getElem hk]

/-- C24, one operation: on a heap that holds `s`, an operation that makes sense neither panics nor hangs, has the effect it should have, and
leaves a heap that holds the result. With `C24_heap_new` this is every state a heap can reach. -/
theorem C24_heap_step {cmp : F → F → Bool} (hc : SWO cmp) {m : Mem F} {h : Heap F} {s : List (Nat × F)} (H : Holds cmp m h s) (o : HeapOp F)
    (ho : o.Enabled s) : ∃ m' h' s', o.exec m h = .val (m', h') ∧ o.Effect cmp s s' ∧ Holds cmp m' h' s' ∧ h'.id = h.id := by
  have hc' : SWO h.cmp := H.same ▸ hc
  have hval : ∀ a x r, s.Perm ((a, x) :: r) → a ∉ r.map (·.1) := by
    intro a x r hp
    have := (hp.map (·.1)).nodup_iff.1 H.once
    simpa using (List.nodup_cons.1 this).1
  cases o with
  | push a x =>
    have ha : a ∉ h.items := fun c => ho (H.items.mem_iff.1 c)
    have w : WF { m with val := upd m.val a x } h := H.wf.frame (fun b hb => by
      have : b ≠ a := fun c => ha (c ▸ hb)
      simp only [upd, if_neg this]) (fun _ _ => rfl) (fun _ _ => rfl)
    obtain ⟨m', h', e, w', i, c, p, v, -⟩ := push_spec hc' w ha
    refine ⟨m', h', (a, x) :: s, e, rfl, Holds.of w' (c.trans H.same) ?_ ?_, i⟩
    · exact p.trans (H.items.cons a)
    · intro q hq
      rw [v]
      rcases List.mem_cons.1 hq with rfl | hq
      · simp [upd]
      · have : q.1 ≠ a := fun e => ho (e ▸ List.mem_map_of_mem hq)
        simp only [upd, if_neg this]
        exact H.val q hq
  | pop =>
    have hne : h.items ≠ [] := by
      intro c
      have := H.items.length_eq
      rw [c] at this
      simp at this
      exact ho (List.length_eq_zero_iff.1 this.symm)
    obtain ⟨a, m', h', e, w', i, c, p, v, -, -, hm⟩ := pop_spec hc' H.wf hne
    have ha : a ∈ s.map (·.1) := H.items.mem_iff.1 (p.mem_iff.1 (by simp))
    obtain ⟨x, r, hr⟩ := split_at ha
    have hx : m.val a = x := H.val (a, x) (hr.mem_iff.2 (by simp))
    refine ⟨m', h', r, ?_, ⟨(a, x), hr, fun q hq => ?_⟩, Holds.of w' (c.trans H.same) ?_ (fun q hq => ?_), i⟩
    · simp only [HeapOp.exec, e, Go.val_bind]
    · have := hm q.1 (H.items.mem_iff.2 (List.mem_map_of_mem hq))
      rw [H.same, H.val q hq, hx] at this
      exact this
    · have := (p.trans H.items).trans (hr.map (·.1))
      exact this.cons_inv
    · rw [v]; exact H.val q (hr.mem_iff.2 (by simp [hq]))
  | remove a =>
    obtain ⟨m', h', e, w', i, c, p, v, -⟩ := remove_spec hc' H.wf (H.items.mem_iff.2 ho)
    obtain ⟨x, r, hr⟩ := split_at ho
    refine ⟨m', h', r, e, ⟨x, hr⟩, Holds.of w' (c.trans H.same) ?_ (fun q hq => ?_), i⟩
    · exact ((p.trans H.items).trans (hr.map (·.1))).cons_inv
    · rw [v]; exact H.val q (hr.mem_iff.2 (by simp [hq]))
  | update a y =>
    obtain ⟨m', h', e, w', i, c, p, v, -⟩ := update_spec hc' H.wf (H.items.mem_iff.2 ho) y
    obtain ⟨x, r, hr⟩ := split_at ho
    refine ⟨m', h', (a, y) :: r, e, ⟨x, r, hr, rfl⟩, Holds.of w' (c.trans H.same) ?_ (fun q hq => ?_), i⟩
    · exact (p.trans H.items).trans (hr.map (·.1))
    · rw [v]
      rcases List.mem_cons.1 hq with rfl | hq
      · simp [upd]
      · have : q.1 ≠ a := fun e => hval a x r hr (e ▸ List.mem_map_of_mem hq)
        simp only [upd, if_neg this]
        exact H.val q (hr.mem_iff.2 (by simp [hq]))

/-- C24, `Peek`: an item that none of the others comes before; `Values` and `Len` are those of the items. -/
theorem C24_heap_peek {cmp : F → F → Bool} (hc : SWO cmp) {m : Mem F} {h : Heap F} {s : List (Nat × F)} (H : Holds cmp m h s) :
    (s = [] → peek m h = .panic) ∧ (s ≠ [] → ∃ p ∈ s, peek m h = .val p.2 ∧ ∀ q ∈ s, cmp q.2 p.2 = false) ∧
      (values m h).Perm (s.map (·.2)) ∧ h.len = s.length := by
  have hl : h.items.length = s.length := by rw [H.items.length_eq, List.length_map]
  refine ⟨fun hs => ?_, fun hs => ?_, ?_, hl⟩
  · subst hs
    have : h.items = [] := List.length_eq_zero_iff.1 hl
    unfold peek
    rw [this]
  · obtain ⟨a, ha, e, hm⟩ := peek_spec (H.same ▸ hc : SWO h.cmp) H.wf (by
      intro c
      rw [c] at hl
      exact hs (List.length_eq_zero_iff.1 hl.symm))
    obtain ⟨p, hp, rfl⟩ := List.mem_map.1 (H.items.mem_iff.1 ha)
    refine ⟨p, hp, by rw [e, H.val p hp], fun q hq => ?_⟩
    have := hm q.1 (H.items.mem_iff.2 (List.mem_map_of_mem hq))
    rwa [H.same, H.val q hq, H.val p hp] at this
  · unfold values
    refine (H.items.map m.val).trans (List.Perm.of_eq ?_)
    rw [List.map_map]
    exact List.map_congr_left fun p hp => H.val p hp

/-- The comparisons of the package's user `HeapMedian` satisfy the hypothesis, and a heap of three values does. -/
example : SWO (fun x y : Nat => decide (x < y)) :=
  ⟨fun h => by simp at *; omega, fun h1 h2 => by simp at *; omega⟩

example : (HeapOp.update 1 (5 : Nat)).Enabled [(0, 3), (1, 2), (2, 9)] ∧
    (HeapOp.update 1 (5 : Nat)).Effect (fun x y => decide (x < y)) [(0, 3), (1, 2), (2, 9)] [(1, 5), (0, 3), (2, 9)] :=
  ⟨by simp [HeapOp.Enabled], 2, [(0, 3), (2, 9)], by decide, rfl⟩

end Verif.Props
