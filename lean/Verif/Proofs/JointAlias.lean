import Verif.Model.JointAlias
import Verif.Proofs.JointMetric

/-! # Slices kept by the core; rejected pushes; the keys of the sums -/

set_option linter.unusedSectionVars false
set_option linter.unusedSimpArgs false

namespace Verif.Joint
open Verif Verif.Spec Verif.MathUtil

section slices
variable {K : Type} [Field K]

/-- The core with the contents of the held slices in its window. -/
def Alias.view (s : Alias K) : Core K := { s.core with queue := ⟨s.refs.cap, s.refs.items.map s.mem, s.refs.disposed⟩ }

/-- The results of one run seen through `view`. -/
def viewGo {β : Type} : Go (Alias K × β) → Go (Core K × β)
  | .panic => .panic
  | .hang => .hang
  | .val (s, e) => .val (s.view, e)

theorem remove_queue (c : Core K) (q : Ring (List K)) (xs : List K) :
    remove { c with queue := q } xs = (match remove c xs with
      | .panic => .panic
      | .hang => .hang
      | .val (c', e) => .val ({ c' with queue := q }, e)) := by
  unfold remove
  simp only
  split_ifs
  · split <;> simp_all
  · rfl

theorem add_queue (c : Core K) (q : Ring (List K)) (xs : List K) :
    add { c with queue := q } xs = (match add c xs with
      | .panic => .panic
      | .hang => .hang
      | .val (c', e) => .val ({ c' with queue := q }, e)) := by
  unfold add
  simp only
  split <;> simp_all

theorem addDecay_queue (d : K) (c : Core K) (q : Ring (List K)) (xs : List K) :
    addDecay d { c with queue := q } xs = (match addDecay d c xs with
      | .panic => .panic
      | .hang => .hang
      | .val (c', e) => .val ({ c' with queue := q }, e)) := by
  unfold addDecay
  simp only
  split <;> simp_all

theorem pushAdd_queue (c : Core K) (q : Ring (List K)) (xs : List K) :
    pushAdd { c with queue := q } xs = (match pushAdd c xs with
      | .panic => .panic
      | .hang => .hang
      | .val (c', e) => .val ({ c' with queue := q }, e)) := by
  obtain ⟨a1, a2, a3, a4, a5, a6, d, a8⟩ := c
  unfold pushAdd
  cases d with
  | none => exact add_queue ⟨a1, a2, a3, a4, a5, a6, none, a8⟩ q xs
  | some d => exact addDecay_queue d ⟨a1, a2, a3, a4, a5, a6, some d, a8⟩ q xs

theorem viewGo_pushAdd (s : Alias K) (xs : List K) : viewGo (s.pushAdd xs) = pushAdd s.view xs := by
  unfold Alias.pushAdd
  have := pushAdd_queue s.core ⟨s.refs.cap, s.refs.items.map s.mem, s.refs.disposed⟩ xs
  unfold Alias.view
  rw [this]
  cases h : Joint.pushAdd s.core xs with
  | panic => rfl
  | hang => rfl
  | val r => rfl

theorem viewGo_evict (s : Alias K) : viewGo s.evict = evict s.view := by
  obtain ⟨c, ⟨cap, items, disp⟩, mem⟩ := s
  have hlen : (Alias.view ⟨c, ⟨cap, items, disp⟩, mem⟩).queue.len = items.length := by simp [Alias.view, Ring.len]
  unfold Alias.evict Joint.evict
  by_cases h : (items.length : Int) = c.window
  · rw [if_pos (show ((Ring.len ⟨cap, items, disp⟩ : Nat) : Int) = c.window from h), if_pos (by rw [hlen]; exact h)]
    unfold Ring.get
    simp only [Alias.view]
    cases disp with
    | true => rfl
    | false =>
      cases items with
      | nil =>
        simp only [List.map_nil, Bool.false_eq_true, if_false]
        by_cases hz : cap = 0
        · simp only [hz, if_true]; rfl
        · simp only [hz, if_false]; rfl
      | cons t ts =>
        simp only [List.map_cons, Bool.false_eq_true, if_false]
        have hq := remove_queue c ⟨cap, ts.map mem, false⟩ (mem t)
        rw [show remove _ (mem t) = _ from hq]
        cases hr : remove c (mem t) with
        | panic => rfl
        | hang => rfl
        | val r => rfl
  · rw [if_neg (show ¬ ((Ring.len ⟨cap, items, disp⟩ : Nat) : Int) = c.window from h), if_neg (by rw [hlen]; exact h)]
    rfl

theorem evict_mem {s s' : Alias K} {e : Option Err} (h : s.evict = .val (s', e)) : s'.mem = s.mem := by
  unfold Alias.evict at h
  split_ifs at h
  · split at h
    · cases h
    · cases h
    · cases h; rfl
    · split at h
      · cases h
      · cases h
      · cases h; rfl
  · cases h; rfl

theorem viewGo_pushPut (s : Alias K) (a : Nat) : viewGo (s.pushPut a) = pushPut s.view (s.mem a) := by
  obtain ⟨c, ⟨cap, items, disp⟩, mem⟩ := s
  unfold Alias.pushPut Joint.pushPut Ring.put
  simp only [Alias.view, List.length_map]
  cases disp with
  | true => rfl
  | false =>
    simp only [Bool.false_eq_true, if_false]
    by_cases h1 : cap = 0
    · rw [if_pos h1, if_pos h1]; rfl
    · rw [if_neg h1, if_neg h1]
      by_cases h2 : items.length < cap
      · rw [if_pos h2, if_pos h2]
        have := viewGo_pushAdd ⟨c, ⟨cap, items ++ [a], false⟩, mem⟩ (mem a)
        simp only [Alias.view, List.map_append, List.map_cons, List.map_nil] at this
        exact this
      · rw [if_neg h2, if_neg h2]; rfl

/-- Pushing through a reference is pushing the present contents. -/
theorem viewGo_push (s : Alias K) (a : Nat) : viewGo (s.push a) = push s.view (s.mem a) := by
  unfold Alias.push Joint.push
  have hm : s.view.means = s.core.means := rfl
  have hw : s.view.window = s.core.window := rfl
  rw [hm, hw]
  split_ifs with h1 h2
  · rfl
  · rw [← viewGo_evict]
    cases he : s.evict with
    | panic => rfl
    | hang => rfl
    | val r =>
      obtain ⟨s', e⟩ := r
      cases e with
      | some e => rfl
      | none =>
        simp only [viewGo]
        rw [← evict_mem he]
        exact viewGo_pushPut s' a
  · exact viewGo_pushAdd s (s.mem a)

theorem view_clear (s : Alias K) : Alias.view { s with core := Joint.clear s.core, refs := Ring.new s.core.window.toNat } = clear s.view := by
  simp [Alias.view, clear, Ring.new]

theorem view_write {s : Alias K} {a : Nat} (h : a ∉ s.refs.items) (xs : List K) :
    Alias.view { s with mem := Function.update s.mem a xs } = s.view := by
  unfold Alias.view
  have : s.refs.items.map (Function.update s.mem a xs) = s.refs.items.map s.mem := by
    apply List.map_congr_left
    intro b hb
    rw [Function.update_of_ne]
    rintro rfl; exact h hb
  rw [this]

theorem push_mem {s s' : Alias K} {a : Nat} {e : Option Err} (h : s.push a = .val (s', e)) : s'.mem = s.mem := by
  have hadd : ∀ {s s' : Alias K} {xs : List K} {e : Option Err}, s.pushAdd xs = .val (s', e) → s'.mem = s.mem := by
    intro s s' xs e h
    unfold Alias.pushAdd at h
    split at h <;> cases h
    rfl
  unfold Alias.push at h
  split_ifs at h
  · cases h; rfl
  · split at h
    · cases h
    · cases h
    · rename_i s1 e1 he
      cases h; exact evict_mem he
    · rename_i s1 he
      rw [← evict_mem he]
      unfold Alias.pushPut at h
      split at h
      · cases h
      · cases h
      · cases h; rfl
      · exact (hadd h).trans rfl
  · exact hadd h

/-- Which addresses are held: nothing but pushed ones. -/
theorem push_refs {s s' : Alias K} {a : Nat} {e : Option Err} (h : s.push a = .val (s', e)) :
    ∀ b ∈ s'.refs.items, b ∈ s.refs.items ∨ b = a := by
  have hadd : ∀ {s s' : Alias K} {xs : List K} {e : Option Err}, s.pushAdd xs = .val (s', e) → s'.refs = s.refs := by
    intro s s' xs e h
    unfold Alias.pushAdd at h
    split at h <;> cases h
    rfl
  have hev : ∀ {s s' : Alias K} {e : Option Err}, s.evict = .val (s', e) → ∀ b ∈ s'.refs.items, b ∈ s.refs.items := by
    intro s s' e h b hb
    unfold Alias.evict at h
    split_ifs at h
    · split at h
      · cases h
      · cases h
      · cases h; exact hb
      · rename_i t q hq
        split at h
        · cases h
        · cases h
        · cases h
          unfold Ring.get at hq
          split at hq
          · cases hq
          · cases hi : s.refs.items with
            | nil => rw [hi] at hq; simp only at hq; split at hq <;> cases hq
            | cons x xs =>
              rw [hi] at hq
              cases hq
              exact List.mem_cons_of_mem _ hb
    · cases h; exact hb
  unfold Alias.push at h
  split_ifs at h
  · cases h; exact fun b hb => Or.inl hb
  · split at h
    · cases h
    · cases h
    · rename_i s1 e1 he
      cases h; exact fun b hb => Or.inl (hev he b hb)
    · rename_i s1 he
      intro b hb
      unfold Alias.pushPut at h
      split at h
      · cases h
      · cases h
      · cases h; exact Or.inl (hev he b hb)
      · rename_i q hq
        rw [hadd h] at hb
        unfold Ring.put at hq
        split at hq
        · cases hq
        · split at hq
          · cases hq
          · split at hq
            · cases hq
              simp only [List.mem_append, List.mem_singleton] at hb
              rcases hb with hb | hb
              · exact Or.inl (hev he b hb)
              · exact Or.inr hb
            · cases hq
  · rw [hadd h]
    exact fun b hb => Or.inl hb

/-! ## Frame conditions -/

/-- What no operation of a core changes. -/
structure Frame (c c' : Core K) : Prop where
  window : c'.window = c.window
  decay : c'.decay = c.decay
  tuples : c'.tuples = c.tuples
  means : c'.means.length = c.means.length

theorem Frame.refl (c : Core K) : Frame c c := ⟨rfl, rfl, rfl, rfl⟩

theorem Frame.trans {a b c : Core K} (h1 : Frame a b) (h2 : Frame b c) : Frame a c :=
  ⟨h2.window.trans h1.window, h2.decay.trans h1.decay, h2.tuples.trans h1.tuples, h2.means.trans h1.means⟩

theorem add_frame {c c' : Core K} {xs : List K} {e : Option Err} (hl : xs.length = c.means.length) (h : add c xs = .val (c', e)) : Frame c c' := by
  unfold add at h
  simp only at h
  split at h
  · cases h
  · cases h
  · cases h; exact ⟨rfl, rfl, rfl, by simp [hl]⟩
  · cases h; exact ⟨rfl, rfl, rfl, by simp [hl]⟩

theorem addDecay_frame {d : K} {c c' : Core K} {xs : List K} {e : Option Err} (hl : xs.length = c.means.length)
    (h : addDecay d c xs = .val (c', e)) : Frame c c' := by
  unfold addDecay at h
  simp only at h
  split at h
  · cases h
  · cases h
  · cases h; exact ⟨rfl, rfl, rfl, by simp [hl]⟩
  · cases h; exact ⟨rfl, rfl, rfl, by simp [hl]⟩

theorem pushAdd_frame {c c' : Core K} {xs : List K} {e : Option Err} (hl : xs.length = c.means.length) (h : pushAdd c xs = .val (c', e)) :
    Frame c c' := by
  unfold pushAdd at h
  split at h
  · exact add_frame hl h
  · exact addDecay_frame hl h

/-- `remove` may be given a slice of another length only if the window was tampered with; the length of the means never grows. -/
theorem remove_frame {c c' : Core K} {xs : List K} {e : Option Err} (hl : xs.length = c.means.length) (h : remove c xs = .val (c', e)) :
    Frame c c' := by
  unfold remove at h
  simp only at h
  split_ifs at h
  · split at h
    · cases h
    · cases h
    · cases h; exact ⟨rfl, rfl, rfl, by simp [hl]⟩
  · cases h; exact ⟨rfl, rfl, rfl, by simp⟩

/-- Every slice in the window has the right length. -/
def QOk (c : Core K) : Prop := ∀ x ∈ c.queue.items, x.length = c.means.length

theorem add_q {c c' : Core K} {xs : List K} {e : Option Err} (h : add c xs = .val (c', e)) : c'.queue = c.queue := by
  unfold add at h
  simp only at h
  split at h <;> cases h <;> rfl

theorem addDecay_q {d : K} {c c' : Core K} {xs : List K} {e : Option Err} (h : addDecay d c xs = .val (c', e)) : c'.queue = c.queue := by
  unfold addDecay at h
  simp only at h
  split at h <;> cases h <;> rfl

theorem pushAdd_q {c c' : Core K} {xs : List K} {e : Option Err} (h : pushAdd c xs = .val (c', e)) : c'.queue = c.queue := by
  unfold pushAdd at h
  split at h
  · exact add_q h
  · exact addDecay_q h

theorem remove_q {c c' : Core K} {xs : List K} {e : Option Err} (h : remove c xs = .val (c', e)) : c'.queue = c.queue := by
  unfold remove at h
  simp only at h
  split_ifs at h
  · split at h <;> cases h
    rfl
  · cases h; rfl

theorem evict_frame {c c' : Core K} {e : Option Err} (hq : QOk c) (h : evict c = .val (c', e)) : Frame c c' ∧ QOk c' := by
  unfold evict at h
  split_ifs at h
  · unfold Ring.get at h
    split at h
    · cases h
    · cases h
    · cases h; exact ⟨Frame.refl c, hq⟩
    · rename_i t q hg
      split at hg
      · cases hg
      · split at hg
        · split at hg <;> cases hg
        · rename_i x xs hi
          cases hg
          have hl : t.length = c.means.length := hq t (by rw [hi]; simp)
          have hf := remove_frame (c := { c with queue := { c.queue with items := xs } }) hl h
          refine ⟨⟨hf.window, hf.decay, hf.tuples, hf.means⟩, ?_⟩
          intro y hy
          rw [remove_q h] at hy
          rw [hf.means]
          exact hq y (by rw [hi]; exact List.mem_cons_of_mem _ hy)
  · cases h; exact ⟨Frame.refl c, hq⟩

/-- No push changes the number of variables, the window, the decay or the tuples. -/
theorem push_frame {c c' : Core K} {xs : List K} {e : Option Err} (hq : QOk c) (h : push c xs = .val (c', e)) : Frame c c' ∧ QOk c' := by
  unfold push at h
  by_cases h1 : xs.length = c.means.length
  · rw [if_neg (by simpa using h1)] at h
    split_ifs at h
    · split at h
      · cases h
      · cases h
      · rename_i c1 e1 he
        cases h; exact evict_frame hq he
      · rename_i c1 he
        obtain ⟨f1, q1⟩ := evict_frame hq he
        have hl : xs.length = c1.means.length := h1.trans f1.means.symm
        unfold pushPut at h
        split at h
        · cases h
        · cases h
        · cases h; exact ⟨f1, q1⟩
        · rename_i q hp
          have hf := pushAdd_frame (c := { c1 with queue := q }) hl h
          refine ⟨f1.trans ⟨hf.window, hf.decay, hf.tuples, hf.means⟩, ?_⟩
          intro y hy
          rw [pushAdd_q h] at hy
          rw [hf.means]
          unfold Ring.put at hp
          split at hp
          · cases hp
          · split at hp
            · cases hp
            · split at hp
              · cases hp
                simp only [List.mem_append, List.mem_singleton] at hy
                rcases hy with hy | rfl
                · exact q1 y hy
                · exact hl
              · cases hp
    · have hf := pushAdd_frame h1 h
      refine ⟨hf, ?_⟩
      intro y hy
      rw [pushAdd_q h] at hy
      rw [hf.means]; exact hq y hy
  · rw [if_pos h1] at h
    cases h; exact ⟨Frame.refl c, hq⟩

theorem clear_frame (c : Core K) : Frame c (clear c) ∧ QOk (clear c) :=
  ⟨⟨rfl, rfl, rfl, by simp [clear]⟩, by simp [QOk, clear, Ring.new]⟩

theorem step_frame {c c' : Core K} {op : MOp (List K)} {e : Option Err} (hq : QOk c) (h : step c op = .val (c', e)) : Frame c c' ∧ QOk c' := by
  cases op with
  | push xs => exact push_frame hq h
  | clear => cases h; exact clear_frame c

theorem run_frame {c c' : Core K} {ops : List (MOp (List K))} {es : List Err} (hq : QOk c) (h : run c ops = .val (c', es)) :
    Frame c c' ∧ QOk c' := by
  unfold run at h
  suffices H : ∀ (ops : List (MOp (List K))) (c : Core K) (l : List Err), QOk c → ∀ c' es, Go.runOps (logged step) (c, l) ops = .val (c', es) →
      Frame c c' ∧ QOk c' from H ops c [] hq c' es h
  clear h hq
  intro ops
  induction ops with
  | nil =>
    intro c l hq c' es h
    cases h; exact ⟨Frame.refl c, hq⟩
  | cons op ops ih =>
    intro c l hq c' es h
    cases e1 : step c op with
    | panic => simp [Go.runOps, logged, e1] at h
    | hang => simp [Go.runOps, logged, e1] at h
    | val r =>
      obtain ⟨c1, o⟩ := r
      simp [Go.runOps, logged, e1] at h
      obtain ⟨f1, q1⟩ := step_frame hq e1
      obtain ⟨f2, q2⟩ := ih c1 _ q1 c' es h
      exact ⟨f1.trans f2, q2⟩

/-- Rejected pushes can be left out. -/
theorem run_filter (c : Core K) (ops : List (MOp (List K))) (hq : QOk c) {c' : Core K} {es : List Err}
    (h : run c (ops.filter (okArity c.means.length)) = .val (c', es)) :
    ∃ es', run c ops = .val (c', es') ∧ es'.length = es.length + ops.countP (fun o => !okArity c.means.length o) := by
  suffices H : ∀ (ops : List (MOp (List K))) (c0 : Core K) (l l' : List Err), QOk c0 → c0.means.length = c.means.length → ∀ c' es,
      Go.runOps (logged step) (c0, l) (ops.filter (okArity c.means.length)) = .val (c', es) →
      ∃ es', Go.runOps (logged step) (c0, l') ops = .val (c', es') ∧
        es'.length + l.length = es.length + l'.length + ops.countP (fun o => !okArity c.means.length o) by
    obtain ⟨es', e, hl⟩ := H ops c [] [] hq rfl c' es h
    exact ⟨es', e, by simpa using hl⟩
  intro ops
  induction ops with
  | nil =>
    intro c0 l l' _ _ c' es h
    cases h
    exact ⟨l', rfl, by simp; omega⟩
  | cons op ops ih =>
    intro c0 l l' hq hn c' es h
    by_cases hop : okArity c.means.length op = true
    · rw [List.filter_cons_of_pos hop] at h
      cases e1 : step c0 op with
      | panic => simp [Go.runOps, logged, e1] at h
      | hang => simp [Go.runOps, logged, e1] at h
      | val r =>
        obtain ⟨c1, o⟩ := r
        obtain ⟨f1, q1⟩ := step_frame hq e1
        simp [Go.runOps, logged, e1] at h
        obtain ⟨es', e, hl⟩ := ih c1 (l ++ o.toList) (l' ++ o.toList) q1 (by rw [f1.means, hn]) c' es h
        refine ⟨es', by simpa [Go.runOps, logged, e1] using e, ?_⟩
        rw [List.countP_cons_of_neg (by simp [hop])]
        simp at hl
        omega
    · rw [List.filter_cons_of_neg hop] at h
      cases op with
      | clear => simp [okArity] at hop
      | push x =>
        have hne : x.length ≠ c0.means.length := by
          rw [hn]; intro e; exact hop (by simp [okArity, e])
        have e1 : step c0 (.push x) = .val (c0, some "tried to push a wrong number of values") := push_arity hne
        obtain ⟨es', e, hl⟩ := ih c0 l (l' ++ ["tried to push a wrong number of values"]) hq hn c' es h
        refine ⟨es', by simpa [Go.runOps, logged, e1] using e, ?_⟩
        rw [List.countP_cons_of_pos (by simp [hop])]
        simp at hl
        omega

theorem mk_QOk {cfg : Config K} {c : Core K} (h : mk cfg = .val c) : QOk c ∧ c.queue.items = [] ∧ c.window = cfg.window.getD 0 ∧
    c.decay = cfg.decay ∧ c.tuples = cfg.sums.getD [] ∧ c.means.length = (varsOf cfg).toNat := by
  unfold mk at h
  split at h
  · cases h
  · cases h
  · cases h
    exact ⟨by simp [QOk, Ring.new], rfl, rfl, rfl, rfl, by simp⟩

/-! ## Histories with shared slices -/

/-- The pushes a caller makes, with the contents of the slices at the time of each push. -/
def reads (mem : Nat → List K) : List (AOp K) → List (MOp (List K))
  | [] => []
  | .push a :: ops => .push (mem a) :: reads mem ops
  | .write a xs :: ops => reads (Function.update mem a xs) ops
  | .clear :: ops => .clear :: reads mem ops

/-- No write goes to a slice that is in the window at that moment. -/
def Quiet : Alias K → List (AOp K) → Prop
  | _, [] => True
  | s, .push a :: ops => ∀ s' e, s.push a = .val (s', e) → Quiet s' ops
  | s, .write a xs :: ops => a ∉ s.refs.items ∧ Quiet { s with mem := Function.update s.mem a xs } ops
  | s, .clear :: ops => Quiet { s with core := Joint.clear s.core, refs := Ring.new s.core.window.toNat } ops

theorem runOps_view (ops : List (AOp K)) (s : Alias K) (l : List Err) (h : Quiet s ops) :
    viewGo (Go.runOps (logged Alias.step) (s, l) ops) = Go.runOps (logged step) (s.view, l) (reads s.mem ops) := by
  induction ops generalizing s l with
  | nil => rfl
  | cons op ops ih =>
    cases op with
    | push a =>
      have hp := viewGo_push s a
      simp only [reads]
      cases e : s.push a with
      | panic =>
        rw [e] at hp
        have hp : push s.view (s.mem a) = .panic := hp.symm
        simp [Go.runOps, logged, Alias.step, step, e, hp, viewGo]
      | hang =>
        rw [e] at hp
        have hp : push s.view (s.mem a) = .hang := hp.symm
        simp [Go.runOps, logged, Alias.step, step, e, hp, viewGo]
      | val r =>
        obtain ⟨s', o⟩ := r
        rw [e] at hp
        have hp : push s.view (s.mem a) = .val (s'.view, o) := hp.symm
        have := ih s' (l ++ o.toList) (h s' o e)
        rw [push_mem e] at this
        simpa [Go.runOps, logged, Alias.step, step, e, hp] using this
    | write a xs =>
      have := ih { s with mem := Function.update s.mem a xs } l h.2
      rw [view_write h.1] at this
      simpa [Go.runOps, logged, Alias.step, reads] using this
    | clear =>
      have := ih { s with core := Joint.clear s.core, refs := Ring.new s.core.window.toNat } l h
      rw [view_clear] at this
      simpa [Go.runOps, logged, Alias.step, step, reads] using this

/-- No slice is written after it was pushed. -/
def NoReuse : List Nat → List (AOp K) → Prop
  | _, [] => True
  | P, .push a :: ops => NoReuse (a :: P) ops
  | P, .write a _ :: ops => a ∉ P ∧ NoReuse P ops
  | P, .clear :: ops => NoReuse P ops

theorem quiet_of_noReuse (ops : List (AOp K)) (s : Alias K) (P : List Nat) (hP : ∀ a ∈ s.refs.items, a ∈ P) (h : NoReuse P ops) : Quiet s ops := by
  induction ops generalizing s P with
  | nil => trivial
  | cons op ops ih =>
    cases op with
    | push a =>
      intro s' e he
      refine ih s' (a :: P) ?_ h
      intro b hb
      rcases push_refs he b hb with hb | rfl
      · exact List.mem_cons_of_mem _ (hP b hb)
      · exact List.mem_cons_self
    | write a xs => exact ⟨fun ha => h.1 (hP a ha), ih _ P hP h.2⟩
    | clear => exact ih _ P (by simp [Ring.new]) h

theorem quiet_of_global (ops : List (AOp K)) (s : Alias K) (hr : s.refs.items = []) (hw : s.core.window = 0) : Quiet s ops := by
  induction ops generalizing s with
  | nil => trivial
  | cons op ops ih =>
    cases op with
    | push a =>
      intro s' e he
      have : s'.refs.items = [] ∧ s'.core.window = 0 := by
        unfold Alias.push at he
        by_cases hl : (s.mem a).length = s.core.means.length
        · rw [if_neg (by simpa using hl), if_neg (by simp [hw])] at he
          unfold Alias.pushAdd at he
          split at he
          · cases he
          · cases he
          · rename_i c e1 hp
            cases he
            exact ⟨hr, (pushAdd_frame hl hp).window.trans hw⟩
        · rw [if_pos hl] at he
          cases he; exact ⟨hr, hw⟩
      exact ih s' this.1 this.2
    | write a xs => exact ⟨by simp [hr], ih _ hr hw⟩
    | clear => exact ih _ (by simp [Ring.new]) hw

/-! ## Reusing a slice once it has left the window -/

theorem push_items {s s' : Alias K} {a : Nat} (hl : (s.mem a).length = s.core.means.length) (hw : s.core.window ≠ 0) (h : s.push a = .val (s', none)) :
    s'.refs.items = (if (s.refs.len : Int) = s.core.window then s.refs.items.tail else s.refs.items) ++ [a] := by
  have hadd : ∀ {s s' : Alias K} {xs : List K} {e : Option Err}, s.pushAdd xs = .val (s', e) → s'.refs = s.refs := by
    intro s s' xs e h
    unfold Alias.pushAdd at h
    split at h <;> cases h
    rfl
  have hev : ∀ {s s' : Alias K}, s.evict = .val (s', none) →
      s'.refs.items = (if (s.refs.len : Int) = s.core.window then s.refs.items.tail else s.refs.items) := by
    intro s s' h
    unfold Alias.evict at h
    split_ifs at h with hc
    · rw [if_pos hc]
      split at h
      · cases h
      · cases h
      · cases h
      · rename_i t q hq
        split at h
        · cases h
        · cases h
        · cases h
          unfold Ring.get at hq
          split at hq
          · cases hq
          · cases hi : s.refs.items with
            | nil => rw [hi] at hq; simp only at hq; split at hq <;> cases hq
            | cons x xs =>
              rw [hi] at hq
              cases hq
              rfl
    · rw [if_neg hc]
      cases h; rfl
  unfold Alias.push at h
  rw [if_neg (by simpa using hl), if_pos hw] at h
  split at h
  · cases h
  · cases h
  · cases h
  · rename_i s1 he
    rw [← hev he]
    unfold Alias.pushPut at h
    split at h
    · cases h
    · cases h
    · cases h
    · rename_i q hq
      rw [hadd h]
      unfold Ring.put at hq
      split at hq
      · cases hq
      · split at hq
        · cases hq
        · split at hq
          · cases hq; rfl
          · cases hq

/-- Only slices that are not among the last `w` accepted ones are written; `P` are the accepted addresses since the last `Clear`, `n` the
number of variables. -/
def Recent (w n : Nat) : (Nat → List K) → List Nat → List (AOp K) → Prop
  | _, _, [] => True
  | mem, P, .push a :: ops => Recent w n mem (if (mem a).length = n then P ++ [a] else P) ops
  | mem, P, .write a xs :: ops => a ∉ lastN w P ∧ Recent w n (Function.update mem a xs) P ops
  | mem, _, .clear :: ops => Recent w n mem [] ops

theorem quiet_of_recent [CharZero K] {n : Nat} {ts : List (List Nat)} (hg : Good n ts) {w : Nat} (hw : w ≠ 0) (hov : 2 ≤ w → NoOverlap ts)
    (ops : List (AOp K)) (s : Alias K) (P : List Nat) (data : List (List K)) (hW : W n ts w data s.view)
    (hP : s.refs.items = lastN w P) (h : Recent w n s.mem P ops) : Quiet s ops := by
  induction ops generalizing s P data with
  | nil => trivial
  | cons op ops ih =>
    have hn : s.core.means.length = n := by
      have h1 := hW.rep.means
      have h2 := hW.rep.len
      rw [← h1] at h2
      exact h2
    have hwin : s.core.window = w := hW.win
    cases op with
    | push a =>
      intro s' e he
      simp only [Recent] at h
      by_cases hl : (s.mem a).length = n
      · rw [if_pos hl] at h
        obtain ⟨c', h1, h2⟩ := push_W hg hov hW hl
        have hv := viewGo_push s a
        rw [he, h1] at hv
        simp only [viewGo, Go.val.injEq, Prod.mk.injEq] at hv
        obtain ⟨hv1, rfl⟩ := hv
        have hi := push_items (hl.trans hn.symm) (by rw [hwin]; exact_mod_cast hw) he
        rw [← hv1] at h2
        refine ih s' (P ++ [a]) _ h2 ?_ (by rw [push_mem he]; exact h)
        rw [hi, hwin]
        unfold Ring.len
        by_cases hf : (lastN w P).length = w
        · rw [if_pos (by rw [hP]; exact_mod_cast hf), lastN_snoc_full hw _ _ hf, hP]
        · rw [if_neg (by rw [hP]; exact_mod_cast hf), lastN_snoc_room hw _ _ hf, hP]
      · rw [if_neg hl] at h
        unfold Alias.push at he
        rw [if_pos (by rw [hn]; exact hl)] at he
        cases he
        exact ih s P data hW hP h
    | write a xs =>
      have hna : a ∉ s.refs.items := by rw [hP]; exact h.1
      refine ⟨hna, ih { s with mem := Function.update s.mem a xs } P data ?_ hP h.2⟩
      rw [view_write hna]
      exact hW
    | clear =>
      refine ih { s with core := Joint.clear s.core, refs := Ring.new s.core.window.toNat } [] [] ?_ (by simp [Ring.new]) h
      rw [view_clear]
      exact clear_W hW

/-! ## The keys of the sums never change -/

/-- `m` has exactly the keys `key`. -/
def KeyInv (key : Int → Prop) (m : Map K) : Prop := ∀ k, m k ≠ none ↔ key k

theorem forEach_inv {α σ : Type} {P : σ → Prop} {body : α → σ → Go (σ × List Err)} {l : List α}
    (hb : ∀ a ∈ l, ∀ s s' e, P s → body a s = .val (s', e) → P s') {s s' : σ} {e : List Err} (hs : P s) (h : forEach body l s = .val (s', e)) : P s' := by
  induction l generalizing s e with
  | nil => cases h; exact hs
  | cons a l ih =>
    simp only [forEach] at h
    split at h
    · cases h
    · cases h
    · rename_i s1 e1 h1
      have hs1 := hb a List.mem_cons_self s s1 e1 hs h1
      split at h
      · cases h
      · cases h
      · rename_i s2 e2 h2
        cases h
        exact ih (fun b hbl => hb b (List.mem_cons_of_mem _ hbl)) hs1 h2

omit [Field K] in
theorem KeyInv.set {key : Int → Prop} {m : Map K} (h : KeyInv key m) {k : Int} (hk : key k) (v : K) : KeyInv key (Map.set m k v) := by
  intro j
  unfold Map.set
  by_cases hj : j = k
  · subst hj; simp [hk]
  · rw [Function.update_of_ne hj]; exact h j

omit [Field K] in
theorem KeyInv.copy {key : Int → Prop} {m m' : Map K} (h : KeyInv key m) (h' : KeyInv key m') : KeyInv key (Map.copy m m') := by
  intro k
  unfold Map.copy
  have h1 := h k
  have h2 := h' k
  cases hm : m' k with
  | none => simpa [hm] using h1
  | some v => rw [hm] at h2; simpa using h2

theorem KeyInv.zero {key : Int → Prop} {m : Map K} (h : KeyInv key m) : KeyInv key (Map.zero m) := by
  intro k
  have h1 := h k
  unfold Map.zero
  cases hm : m k with
  | none => simpa [hm] using h1
  | some v => rw [hm] at h1; simpa using h1

theorem visit_keys {key : Int → Prop} {r : Rule K} {δ : List K} {sums : Map K} {a b : Tuple} {ns ns' : Map K} {e : List Err}
    (h : KeyInv key ns) (ha : key (hash a)) (he : visit r δ sums a b ns = .val (ns', e)) : KeyInv key ns' := by
  unfold visit at he
  split at he
  · cases he; exact h
  · split_ifs at he
    · cases he; exact h.set ha _
    · cases he; exact h.set ha _
    · unfold visitPart at he
      split at he
      · cases he
      · cases he
      · cases he; exact h
      · split at he
        · cases he; exact h
        · cases he; exact h.set ha _

/-- The keys of a list of tuples. -/
def keyOf (ts : List Tuple) (k : Int) : Prop := ∃ t ∈ ts, ∃ a, Under a t ∧ hash a = k

theorem updateTuple_keys {ts : List Tuple} {r : Rule K} {rev : Bool} {δ : List K} {sums : Map K} {t : Tuple} (ht : t ∈ ts) {ns ns' : Map K}
    {e : List Err} (h : KeyInv (keyOf ts) ns) (he : updateTuple r rev δ sums t ns = .val (ns', e)) : KeyInv (keyOf ts) ns' := by
  unfold updateTuple at he
  rw [iter_eq] at he
  refine forEach_inv (P := KeyInv (keyOf ts)) ?_ h he
  intro a ha s s' e' hs h1
  have hk : keyOf ts (hash a) := ⟨t, ht, a, mem_visited.1 ha, rfl⟩
  rw [iter_eq] at h1
  exact forEach_inv (P := KeyInv (keyOf ts)) (fun b _ s s' e hs h => visit_keys hs hk h) (hs.set hk 0) h1

theorem updateAll_keys {ts : List Tuple} {r : Rule K} {δ : List K} {sums : Map K} (l : List Tuple) (hl : ∀ t ∈ l, t ∈ ts) {ns ns' : Map K}
    {e : Option Err} (h : KeyInv (keyOf ts) ns) (he : updateAll r δ sums l ns = .val (ns', e)) : KeyInv (keyOf ts) ns' := by
  induction l generalizing ns with
  | nil => cases he; exact h
  | cons t l ih =>
    simp only [updateAll] at he
    split at he
    · cases he
    · cases he
    · rename_i ns1 h1
      exact ih (fun t ht => hl t (List.mem_cons_of_mem _ ht)) (updateTuple_keys (hl t List.mem_cons_self) h h1) he
    · rename_i ns1 e1 es h1
      cases he
      exact updateTuple_keys (hl t List.mem_cons_self) h h1

theorem removeAll_keys {ts : List Tuple} {r : Rule K} {δ : List K} (l : List Tuple) (hl : ∀ t ∈ l, t ∈ ts) {sums sums' ns ns' : Map K}
    {e : Option Err} (hs : KeyInv (keyOf ts) sums) (h : KeyInv (keyOf ts) ns) (he : removeAll r δ l sums ns = .val (sums', ns', e)) :
    KeyInv (keyOf ts) sums' ∧ KeyInv (keyOf ts) ns' := by
  induction l generalizing sums ns with
  | nil => cases he; exact ⟨hs, h⟩
  | cons t l ih =>
    simp only [removeAll] at he
    split at he
    · cases he
    · cases he
    · rename_i ns1 h1
      have hk := updateTuple_keys (hl t List.mem_cons_self) h h1
      exact ih (fun t ht => hl t (List.mem_cons_of_mem _ ht)) (hs.copy hk) hk he
    · rename_i ns1 e1 es h1
      cases he
      exact ⟨hs, updateTuple_keys (hl t List.mem_cons_self) h h1⟩

/-- The keys of a core are those of its tuples. -/
def Keys (c : Core K) : Prop := KeyInv (keyOf c.tuples) c.sums ∧ KeyInv (keyOf c.tuples) c.newSums

theorem pushAdd_keys {c c' : Core K} {xs : List K} {e : Option Err} (h : Keys c) (he : pushAdd c xs = .val (c', e)) : Keys c' := by
  unfold pushAdd at he
  split at he
  · unfold add at he
    simp only at he
    split at he
    · cases he
    · cases he
    · rename_i ns e1 h1
      cases he
      exact ⟨h.1, updateAll_keys _ (fun _ h => h) h.2 h1⟩
    · rename_i ns h1
      cases he
      have := updateAll_keys _ (fun _ h => h) h.2 h1
      exact ⟨h.1.copy this, this⟩
  · unfold addDecay at he
    simp only at he
    split at he
    · cases he
    · cases he
    · rename_i ns e1 h1
      cases he
      exact ⟨h.1, updateAll_keys _ (fun _ h => h) h.2 h1⟩
    · rename_i ns h1
      cases he
      have := updateAll_keys _ (fun _ h => h) h.2 h1
      exact ⟨h.1.copy this, this⟩

theorem remove_keys {c c' : Core K} {xs : List K} {e : Option Err} (h : Keys c) (he : remove c xs = .val (c', e)) : Keys c' := by
  unfold remove at he
  simp only at he
  split_ifs at he
  · split at he
    · cases he
    · cases he
    · rename_i s1 n1 e1 h1
      cases he
      exact removeAll_keys _ (fun _ h => h) h.1 h.2 h1
  · cases he
    exact ⟨h.1.zero, h.2.zero⟩

theorem evict_keys {c c' : Core K} {e : Option Err} (h : Keys c) (he : evict c = .val (c', e)) : Keys c' := by
  unfold evict at he
  split_ifs at he
  · split at he
    · cases he
    · cases he
    · cases he; exact h
    · rename_i t q hg
      exact remove_keys (c := { c with queue := q }) h he
  · cases he; exact h

theorem push_keys {c c' : Core K} {xs : List K} {e : Option Err} (h : Keys c) (he : push c xs = .val (c', e)) : Keys c' := by
  unfold push at he
  split_ifs at he
  · cases he; exact h
  · split at he
    · cases he
    · cases he
    · rename_i c1 e1 h1
      cases he; exact evict_keys h h1
    · rename_i c1 h1
      unfold pushPut at he
      split at he
      · cases he
      · cases he
      · cases he; exact evict_keys h h1
      · rename_i q hq
        have hk : Keys c1 := evict_keys h h1
        exact pushAdd_keys (c := { c1 with queue := q }) hk he
  · exact pushAdd_keys h he

theorem step_keys {c c' : Core K} {op : MOp (List K)} {e : Option Err} (h : Keys c) (he : step c op = .val (c', e)) : Keys c' := by
  cases op with
  | push xs => exact push_keys h he
  | clear => cases he; exact ⟨h.1.zero, h.2.zero⟩

theorem run_keys {c c' : Core K} {ops : List (MOp (List K))} {es : List Err} (h : Keys c) (he : run c ops = .val (c', es)) : Keys c' := by
  unfold run at he
  suffices H : ∀ (ops : List (MOp (List K))) (c : Core K) (l : List Err), Keys c → ∀ c' es, Go.runOps (logged step) (c, l) ops = .val (c', es) →
      Keys c' from H ops c [] h c' es he
  clear he h
  intro ops
  induction ops with
  | nil => intro c l h c' es he; cases he; exact h
  | cons op ops ih =>
    intro c l h c' es he
    cases e1 : step c op with
    | panic => simp [Go.runOps, logged, e1] at he
    | hang => simp [Go.runOps, logged, e1] at he
    | val r =>
      obtain ⟨c1, o⟩ := r
      simp [Go.runOps, logged, e1] at he
      exact ih c1 _ (step_keys h e1) c' es he

theorem mk_keys {cfg : Config K} {c : Core K} (h : mk cfg = .val c) :
    Keys c ∧ (∀ k, c.sums k = none ∨ c.sums k = some 0) ∧ c.newSums = c.sums ∧ c.count = 0 ∧ c.means = List.replicate c.means.length 0 ∧
    c.queue = Ring.new c.window.toNat := by
  obtain ⟨m, e, h1, h2⟩ := initSums_val (cfg.sums.getD []) (fun _ => (none : Option K))
  unfold mk at h
  rw [e] at h
  cases h
  have hk : KeyInv (keyOf (cfg.sums.getD [])) m := by
    intro k
    by_cases hk : keyOf (cfg.sums.getD []) k
    · obtain ⟨t, ht, a, ha, rfl⟩ := hk
      rw [h1 t ht a ha]
      simp only [ne_eq, reduceCtorEq, not_false_eq_true, true_iff]
      exact ⟨t, ht, a, ha, rfl⟩
    · rw [h2 k (fun t ht a ha he => hk ⟨t, ht, a, ha, he⟩)]
      simp [hk]
  refine ⟨⟨hk, hk⟩, ?_, rfl, rfl, by simp, rfl⟩
  intro k
  by_cases hk : keyOf (cfg.sums.getD []) k
  · obtain ⟨t, ht, a, ha, rfl⟩ := hk
    exact Or.inr (h1 t ht a ha)
  · exact Or.inl (h2 k (fun t ht a ha he => hk ⟨t, ht, a, ha, he⟩))

/-- `Clear` restores the state of a new core, whatever happened before. -/
theorem clear_run {cfg : Config K} {c c' : Core K} {ops : List (MOp (List K))} {es : List Err} (hm : mk cfg = .val c) (h : run c ops = .val (c', es)) :
    clear c' = c := by
  obtain ⟨k1, k2, k3, k4, k5, k6⟩ := mk_keys hm
  have hk := run_keys k1 h
  obtain ⟨f, -⟩ := run_frame (mk_QOk hm).1 h
  have hz : ∀ m : Map K, KeyInv (keyOf c.tuples) m → Map.zero m = c.sums := by
    intro m hm'
    funext k
    have a1 := hm' k
    have a2 := k1.1 k
    unfold Map.zero
    rcases k2 k with h | h
    · rw [h] at a2
      have : m k = none := by
        by_contra hc; exact (a2.2 (a1.1 hc)) rfl
      rw [this, h]; rfl
    · rw [h] at a2 ⊢
      have : m k ≠ none := a1.2 (a2.1 (by simp))
      obtain ⟨v, hv⟩ := Option.ne_none_iff_exists'.1 this
      rw [hv]; rfl
  obtain ⟨m', t', s', n', ct', w', d', q'⟩ := c'
  obtain ⟨m, t, s, n, ct, w, d, q⟩ := c
  obtain ⟨f1, f2, f3, f4⟩ := f
  simp only at f1 f2 f3 f4 k3 k4 k5 k6 hz
  subst f1; subst f2; subst f3; subst k4; subst k3
  have hk1 := hz s' hk.1
  have hk2 := hz n' hk.2
  simp only [clear]
  rw [hk1, hk2, k6]
  congr 1
  rw [k5, List.map_const', f4]

end slices
end Verif.Joint
