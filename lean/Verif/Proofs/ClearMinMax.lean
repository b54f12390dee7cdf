import Verif.Proofs.Sim
import Verif.Model.MinMax

/-! # `Clear` of `Max` and `Min`: the count of deque removals, which the code does not keep, is irrelevant -/

namespace Verif.MinMax
open Verif Verif.Spec

namespace Max
variable {F : Type} [GoOrd F]

/-- Equal up to the removal count. -/
def Same (a b : St F) : Prop := ∃ r, a = { b with removed := r }

theorem evict_same {a b : St F} (h : Same a b) :
    GoR (fun x y => match x, y with
      | .ok a, .ok b => Same a b
      | .error e, .error e' => e = e'
      | _, _ => False) (evict a) (evict b) := by
  obtain ⟨r, rfl⟩ := h
  obtain ⟨w, q, d, x, n, k⟩ := b
  unfold evict
  simp only
  by_cases hw : (q.len : Int) = w
  · rw [if_pos (show (q.len : Int) = w from hw), if_pos (show (q.len : Int) = w from hw)]
    rcases e : q.get with (e | ⟨v, q'⟩) | _ | _
    · exact rfl
    · cases d with
      | nil => trivial
      | cons f d =>
        simp only
        by_cases hf : (f =ᵇ v) = true
        · rw [if_pos hf, if_pos hf]; exact ⟨_, rfl⟩
        · rw [if_neg hf, if_neg hf]; exact ⟨_, rfl⟩
    · trivial
    · trivial
  · rw [if_neg (show ¬(q.len : Int) = w from hw), if_neg (show ¬(q.len : Int) = w from hw)]
    exact ⟨r, rfl⟩

theorem step_same (O : Ext F) (a b : St F) (o : MOp F) (h : Same a b) :
    GoR (fun x y => Same x.1 y.1 ∧ x.2 = y.2) (step O a o) (step O b o) := by
  cases o with
  | clear => obtain ⟨r, rfl⟩ := h; exact ⟨⟨r, rfl⟩, rfl⟩
  | push x =>
    have he := evict_same h
    have hab := h
    obtain ⟨r, rfl⟩ := h
    simp only [step, push]
    by_cases hw : b.window ≠ 0
    · rw [if_pos hw, if_pos hw]
      rcases e1 : evict { b with removed := r } with (e | a') | _ | _ <;> rcases e2 : evict b with (e' | b') | _ | _ <;>
        rw [e1, e2] at he
      · exact ⟨hab, congrArg some he⟩
      · exact he.elim
      · exact he.elim
      · exact he.elim
      · exact he.elim
      · obtain ⟨r', rfl⟩ := (he : Same a' b')
        simp only
        rcases b'.queue.put x with (e | q') | _ | _
        · exact ⟨⟨r', rfl⟩, rfl⟩
        · exact ⟨⟨_, rfl⟩, rfl⟩
        · trivial
        · trivial
      all_goals first | exact he.elim | trivial
    · rw [if_neg hw, if_neg hw]; exact ⟨⟨r, rfl⟩, rfl⟩

theorem value_same {a b : St F} (h : Same a b) : value a = value b := by obtain ⟨r, rfl⟩ := h; rfl

theorem evict_window {s s' : St F} (h : evict s = .val (.ok s')) : s'.window = s.window := by
  unfold evict at h
  split at h
  · split at h
    · simp at h
    · simp at h
    · simp at h
    · split at h
      · simp at h
      · split at h <;> (simp at h; rw [← h])
  · simp at h; rw [h]

theorem step_window (O : Ext F) (s : St F) (a : MOp F) (s' : St F) (o : Option Err) (h : step O s a = .val (s', o)) :
    s'.window = s.window := by
  cases a with
  | clear => simp [step] at h; rw [← h.1]; rfl
  | push x =>
    simp only [step, push] at h
    split at h
    · rcases e : evict s with (e1 | s1) | _ | _ <;> rw [e] at h
      · simp at h; rw [h.1]
      · have := evict_window e
        rcases e2 : s1.queue.put x with (e3 | q) | _ | _ <;> simp [e2] at h
        · rw [← h.1]; exact this
        · rw [← h.1]; exact this
      · simp at h
      · simp at h
    · simp at h; rw [← h.1]

theorem clear_same (O : Ext F) (w : Int) (ops : List (MOp F)) (s' : St F) (es : List Err)
    (h : Go.runOps (logged (step O)) (fresh O w, []) ops = .val (s', es)) :
    ∃ t, step O s' .clear = .val (t, none) ∧ Same t (fresh O w) := by
  have hw := logged_inv (P := fun s : St F => s.window = w) (fun s a s2 o hs e => (step_window O s a s2 o e).trans hs) ops _ _ _ _ rfl h
  exact ⟨_, rfl, s'.removed, by simp [clear, fresh, hw]⟩

end Max

namespace Min
variable {F : Type} [GoOrd F]

/-- Equal up to the removal count. -/
def Same (a b : St F) : Prop := ∃ r, a = { b with removed := r }

theorem evict_same {a b : St F} (h : Same a b) :
    GoR (fun x y => match x, y with
      | .ok a, .ok b => Same a b
      | .error e, .error e' => e = e'
      | _, _ => False) (evict a) (evict b) := by
  obtain ⟨r, rfl⟩ := h
  obtain ⟨w, q, d, x, n, k⟩ := b
  unfold evict
  simp only
  by_cases hw : (q.len : Int) = w
  · rw [if_pos (show (q.len : Int) = w from hw), if_pos (show (q.len : Int) = w from hw)]
    rcases e : q.get with (e | ⟨v, q'⟩) | _ | _
    · exact rfl
    · cases d with
      | nil => trivial
      | cons f d =>
        simp only
        by_cases hf : (f =ᵇ v) = true
        · rw [if_pos hf, if_pos hf]; exact ⟨_, rfl⟩
        · rw [if_neg hf, if_neg hf]; exact ⟨_, rfl⟩
    · trivial
    · trivial
  · rw [if_neg (show ¬(q.len : Int) = w from hw), if_neg (show ¬(q.len : Int) = w from hw)]
    exact ⟨r, rfl⟩

theorem step_same (O : Ext F) (a b : St F) (o : MOp F) (h : Same a b) :
    GoR (fun x y => Same x.1 y.1 ∧ x.2 = y.2) (step O a o) (step O b o) := by
  cases o with
  | clear => obtain ⟨r, rfl⟩ := h; exact ⟨⟨r, rfl⟩, rfl⟩
  | push x =>
    have he := evict_same h
    have hab := h
    obtain ⟨r, rfl⟩ := h
    simp only [step, push]
    by_cases hw : b.window ≠ 0
    · rw [if_pos hw, if_pos hw]
      rcases e1 : evict { b with removed := r } with (e | a') | _ | _ <;> rcases e2 : evict b with (e' | b') | _ | _ <;>
        rw [e1, e2] at he
      · exact ⟨hab, congrArg some he⟩
      · exact he.elim
      · exact he.elim
      · exact he.elim
      · exact he.elim
      · obtain ⟨r', rfl⟩ := (he : Same a' b')
        simp only
        rcases b'.queue.put x with (e | q') | _ | _
        · exact ⟨⟨r', rfl⟩, rfl⟩
        · exact ⟨⟨_, rfl⟩, rfl⟩
        · trivial
        · trivial
      all_goals first | exact he.elim | trivial
    · rw [if_neg hw, if_neg hw]; exact ⟨⟨r, rfl⟩, rfl⟩

theorem value_same {a b : St F} (h : Same a b) : value a = value b := by obtain ⟨r, rfl⟩ := h; rfl

theorem evict_window {s s' : St F} (h : evict s = .val (.ok s')) : s'.window = s.window := by
  unfold evict at h
  split at h
  · split at h
    · simp at h
    · simp at h
    · simp at h
    · split at h
      · simp at h
      · split at h <;> (simp at h; rw [← h])
  · simp at h; rw [h]

theorem step_window (O : Ext F) (s : St F) (a : MOp F) (s' : St F) (o : Option Err) (h : step O s a = .val (s', o)) :
    s'.window = s.window := by
  cases a with
  | clear => simp [step] at h; rw [← h.1]; rfl
  | push x =>
    simp only [step, push] at h
    split at h
    · rcases e : evict s with (e1 | s1) | _ | _ <;> rw [e] at h
      · simp at h; rw [h.1]
      · have := evict_window e
        rcases e2 : s1.queue.put x with (e3 | q) | _ | _ <;> simp [e2] at h
        · rw [← h.1]; exact this
        · rw [← h.1]; exact this
      · simp at h
      · simp at h
    · simp at h; rw [← h.1]

theorem clear_same (O : Ext F) (w : Int) (ops : List (MOp F)) (s' : St F) (es : List Err)
    (h : Go.runOps (logged (step O)) (fresh O w, []) ops = .val (s', es)) :
    ∃ t, step O s' .clear = .val (t, none) ∧ Same t (fresh O w) := by
  have hw := logged_inv (P := fun s : St F => s.window = w) (fun s a s2 o hs e => (step_window O s a s2 o e).trans hs) ops _ _ _ _ rfl h
  exact ⟨_, rfl, s'.removed, by simp [clear, fresh, hw]⟩

end Min
end Verif.MinMax
