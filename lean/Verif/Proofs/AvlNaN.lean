import Verif.Proofs.Avl

/-! # AVL tree with arbitrary comparisons (NaN allowed): structure, not order -/

namespace Verif.Avl
open Verif Verif.Spec

variable {F : Type}

namespace Node

theorem add_wf [GoOrd F] (x : F) {t : Node F} (h : WF t) :
    ∃ t', add t x = .val t' ∧ WF t' ∧ t'.toList.Perm (x :: t.toList) ∧
      (t'.height = t.height ∨ t'.height = t.height + 1) := by
  induction t with
  | nil => exact ⟨_, rfl, by simp [newNode, WF, height_nil, size_nil], by simp [newNode, toList],
      by simp [newNode, height_nil, height_node]⟩
  | node l v r hh s ihl ihr =>
    obtain ⟨h1, h2, h3, h4, h5, h6⟩ := h
    simp only [add]
    split_ifs with c
    · obtain ⟨l', e, w, p, hh'⟩ := ihl h1
      obtain ⟨t', e', w', p', hb⟩ := balance_spec v w h2 (by omega) (by omega)
      refine ⟨t', by simp [e, e'], w', ?_, ?_⟩
      · rw [p']; simp only [toList]
        exact (p.append_right _)
      · simp only [height_node]; omega
    · obtain ⟨r', e, w, p, hh'⟩ := ihr h2
      obtain ⟨t', e', w', p', hb⟩ := balance_spec v h1 w (by omega) (by omega)
      refine ⟨t', by simp [e, e'], w', ?_, ?_⟩
      · rw [p']; simp only [toList]
        refine ((p.cons v).append_left _).trans ?_
        exact ((List.Perm.swap x v _).append_left _).trans List.perm_middle
      · simp only [height_node]; omega

theorem remove_wf [GoOrd F] (x : F) {t : Node F} (h : WF t) :
    ∃ t', remove t x = .val t' ∧ WF t' ∧ t'.toList.Sublist t.toList ∧ t.toList.length ≤ t'.toList.length + 1 ∧
      (t'.height = t.height ∨ t'.height = t.height - 1) := by
  induction t with
  | nil => exact ⟨nil, rfl, trivial, by simp [toList], by simp [toList], by simp⟩
  | node l v r hh s ihl ihr =>
    obtain ⟨h1, h2, h3, h4, h5, h6⟩ := h
    simp only [remove]
    split_ifs with c1 c2
    · obtain ⟨l', e, w, p, pl, hh'⟩ := ihl h1
      obtain ⟨t', e', w', p', hb⟩ := balance_spec v w h2 (by omega) (by omega)
      refine ⟨t', by simp [e, e'], w', ?_, ?_, ?_⟩
      · rw [p']; exact p.append (List.Sublist.refl _)
      · rw [p']; simp only [toList, List.length_append]; omega
      · simp only [height_node]; omega
    · obtain ⟨r', e, w, p, pl, hh'⟩ := ihr h2
      obtain ⟨t', e', w', p', hb⟩ := balance_spec v h1 w (by omega) (by omega)
      refine ⟨t', by simp [e, e'], w', ?_, ?_, ?_⟩
      · rw [p']; exact (List.Sublist.refl _).append (p.cons_cons v)
      · rw [p']; simp only [toList, List.length_append, List.length_cons]; omega
      · simp only [height_node]; omega
    · have hl := h1.height_ge
      have hr := h2.height_ge
      cases l with
      | nil =>
        refine ⟨r, by simp, h2, by simp [toList], by simp [toList], ?_⟩
        simp only [height_nil, height_node] at *; omega
      | node ll lv lr lh ls =>
        cases r with
        | nil =>
          refine ⟨_, by simp, h1, by simp [toList], by simp [toList]; omega, ?_⟩
          simp only [height_nil, height_node] at *; omega
        | node rl rv rr rh rs =>
          obtain ⟨m, tl, e1, e2⟩ := min_spec (t := node rl rv rr rh rs) (by simp)
          obtain ⟨r', e, w, p, hh'⟩ := removeMin_spec h2 (by simp)
          obtain ⟨t', e', w', p', hb⟩ := balance_spec m h1 w (by omega) (by omega)
          refine ⟨t', by simp [e1, e, e'], w', ?_, ?_, ?_⟩
          · rw [p', p, e2, toList.eq_def (node (node ll lv lr lh ls) v _ hh s)]
            simp only [e2]
            exact (List.Sublist.refl _).append (List.sublist_cons_self _ _)
          · rw [p', p, e2, toList.eq_def (node (node ll lv lr lh ls) v _ hh s)]
            simp only [e2]; simp; omega
          · simp only [height_node] at *; omega

theorem select_out {t : Node F} (h : WF t) : ∀ k : Int, (k < 0 ∨ t.size ≤ k) → t.select k = none := by
  induction t with
  | nil => intro k _; rfl
  | node l v r hh s ihl ihr =>
    intro k hk
    have hl := h.1.size_eq
    have hr := h.2.1.size_eq
    have hs : s = l.size + r.size + 1 := h.2.2.2.1
    simp only [size_node] at hk
    simp only [select]
    split_ifs with c1 c2
    · exact ihl h.1 k (by omega)
    · exact ihr h.2.1 _ (by omega)
    · omega

end Node

theorem Node.select_in {t : Node F} (h : t.WF) {k : Int} (h0 : 0 ≤ k) (h1 : k < t.size) :
    ∃ v ∈ t.toList, t.select k = some v := by
  rw [h.size_eq] at h1
  rw [Node.select_spec h, if_pos h0]
  exact ⟨t.toList[k.toNat]'(by omega), List.getElem_mem _, List.getElem?_eq_getElem _⟩

/-- Any history on the tree, whatever the comparisons answer: it does not panic and keeps the stored sizes and heights right. -/
theorem Tree.run_wf [GoOrd F] (ops : List (OSOp F)) : ∃ t, Tree.run ops = .val t ∧ t.root.WF := by
  refine (Go.runOps_inv (I := fun _ t => t.root.WF) (step := Tree.step) ?_ Tree.empty [] trivial ops)
  intro _ t o h
  cases o with
  | add x =>
    obtain ⟨r, e, w, -⟩ := Node.add_wf x h
    exact ⟨⟨r⟩, by simp [Tree.step, Tree.add, e], w⟩
  | remove x =>
    obtain ⟨r, e, w, -⟩ := Node.remove_wf x h
    exact ⟨⟨r⟩, by simp [Tree.step, Tree.remove, e], w⟩
  | clear => exact ⟨_, rfl, trivial⟩

end Verif.Avl
