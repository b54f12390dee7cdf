import Verif.Model.LockedStatements
import Verif.Proofs.LockedMetrics

/-! # The bodies of `Model/LockedStatements.lean` compute what the methods compute -/

namespace Verif.Locks
open Verif Prog

variable {σ β γ A V R : Type}

theorem Prog.Plain.bind {p : Prog σ β} (h : p.Plain) {g : β → Prog σ γ} (hg : ∀ b, (g b).Plain) : (p.bind g).Plain := by
  induction h with
  | ret b => exact hg b
  | act _ ih => exact .act ih

theorem Prog.ReadOnly.bind {p : Prog σ β} (h : p.ReadOnly) {g : β → Prog σ γ} (hg : ∀ b, (g b).ReadOnly) : (p.bind g).ReadOnly := by
  induction h with
  | ret b => exact hg b
  | act hf _ ih => exact .act hf ih

theorem Prog.plain_call (g : σ → Go (σ × β)) (d : β) : (call g d).Plain := .act fun _ => .ret _

theorem Prog.run_call (g : σ → Go (σ × β)) (d : β) (s : σ) : (call g d).run s = g s := by
  unfold call once Prog.run
  dsimp only
  rcases g s with x | _ | _ <;> rfl

theorem Prog.readOnly_look (g : σ → β) : (look g).ReadOnly := .act (fun s s' h => by cases h; rfl) fun _ => .ret _

theorem Prog.run_look (g : σ → β) (s : σ) : (look g).run s = .val (s, g s) := rfl

theorem Prog.readOnly_call {g : σ → Go (σ × β)} (d : β) (hg : ∀ s x, g s = .val x → x.1 = s) : (call g d).ReadOnly := by
  refine .act (fun s s' h => ?_) fun _ => .ret _
  rcases hx : g s with ⟨x, b⟩ | _ | _
  · rw [hx] at h
    cases h
    exact hg s _ hx
  · rw [hx] at h; cases h
  · rw [hx] at h; cases h

/-- Every method one action. -/
theorem single_ok (D : Methods σ A V R) (d : R) : (single D d).OK D where
  push_plain _ := plain_call _ _
  push_run x s := run_call _ _ s
  get_read v := by
    refine readOnly_call d (fun s x h => ?_)
    rcases hx : D.get s v with y | _ | _
    · rw [hx] at h; cases h; rfl
    · rw [hx] at h; cases h
    · rw [hx] at h; cases h
  get_run v s := run_call _ _ s
  clear_plain := .act fun _ => .ret _
  clear_run _ := rfl

section moment
variable {K : Type} [Field K]

theorem coreSingle_ok : (coreSingle K).OK where
  push_plain _ := plain_call _ _
  push_run x s := run_call _ _ s
  clear_plain := .act fun _ => .ret _
  clear_run _ := rfl
  count_read := readOnly_look _
  count_run _ := rfl
  mean_read := readOnly_look _
  mean_run _ := rfl
  sum_read _ := readOnly_look _
  sum_run _ _ := rfl

theorem jointSingle_ok : (jointSingle K).OK where
  push_plain _ := plain_call _ _
  push_run x s := run_call _ _ s
  clear_plain := .act fun _ => .ret _
  clear_run _ := rfl
  count_read := readOnly_look _
  count_run _ := rfl
  mean_read _ := readOnly_look _
  mean_run _ _ := rfl
  sum_read _ := readOnly_look _
  sum_run _ _ := rfl

theorem corePutAdd_plain (x : K) : (corePutAdd x).Plain := by
  refine (plain_call _ _).bind fun e => ?_
  cases e with
  | none => exact plain_call _ _
  | some e => exact .ret _

theorem corePutAdd_run (x : K) (c : Moment.Core K) : (corePutAdd x).run c = (match c.queue.put x with
      | .panic => .panic
      | .hang => .hang
      | .val (.error e) => .val (c, some e)
      | .val (.ok q) => Moment.pushAdd { c with queue := q } x) := by
  unfold corePutAdd corePut
  rw [run_bind, run_call]
  rcases c.queue.put x with (e | q) | _ | _
  · rfl
  · exact run_call (fun c => Moment.pushAdd c x) none _
  · rfl
  · rfl

theorem coreSteps_ok : (coreSteps K).OK where
  push_plain x := by
    refine (readOnly_look _).plain.bind fun w => ?_
    by_cases hw : w ≠ 0
    · rw [if_pos hw]
      refine (readOnly_look _).plain.bind fun n => ?_
      by_cases hn : (n : Int) = w
      · rw [if_pos hn]
        refine (plain_call _ _).bind fun r => ?_
        cases r with
        | error e => exact .ret _
        | ok t => exact (plain_call _ _).bind fun _ => corePutAdd_plain x
      · rw [if_neg hn]; exact corePutAdd_plain x
    · rw [if_neg hw]; exact plain_call _ _
  push_run x c := by
    show (coreUnsafePush x).run c = _
    unfold coreUnsafePush Moment.push Moment.evict
    rw [run_bind, run_look, Go.val_bind]
    dsimp only
    by_cases hw : c.window ≠ 0
    · rw [if_pos hw, if_pos hw, run_bind, run_look, Go.val_bind]
      dsimp only
      by_cases hn : (c.queue.len : Int) = c.window
      · rw [if_pos hn, if_pos hn, run_bind]
        unfold coreGet
        rw [run_call]
        rcases c.queue.get with (e | ⟨t, q⟩) | _ | _
        · rfl
        · dsimp only
          rw [Go.val_bind]
          dsimp only
          unfold coreRemove
          rw [run_bind, run_call]
          rcases Moment.remove { c with queue := q } t with c' | _ | _
          · dsimp only
            rw [Go.val_bind, corePutAdd_run]
            dsimp only
            rcases c'.queue.put x with (e | q) | _ | _ <;> rfl
          · rfl
          · rfl
        · rfl
        · rfl
      · rw [if_neg hn, if_neg hn, corePutAdd_run]
        dsimp only
        rcases c.queue.put x with (e | q) | _ | _ <;> rfl
    · rw [if_neg hw, if_neg hw]
      exact run_call _ _ _
  clear_plain := .act fun _ => .act fun _ => .act fun _ => .act fun _ => .ret _
  clear_run _ := rfl
  count_read := readOnly_look _
  count_run _ := rfl
  mean_read := by
    refine (readOnly_look _).bind fun n => ?_
    by_cases hn : n = 0
    · rw [if_pos hn]; exact .ret _
    · rw [if_neg hn]; exact readOnly_look _
  mean_run c := by
    show coreUnsafeMean.run c = _
    unfold coreUnsafeMean Moment.mean
    rw [run_bind, run_look, Go.val_bind]
    dsimp only
    by_cases hn : c.count = 0
    · rw [if_pos hn, if_pos hn]; rfl
    · rw [if_neg hn, if_neg hn]; rfl
  sum_read k := by
    refine (readOnly_look _).bind fun n => ?_
    by_cases hn : n = 0
    · rw [if_pos hn]; exact .ret _
    · rw [if_neg hn]
      refine (readOnly_look _).bind fun l => ?_
      by_cases hl : k ≤ 0 ∨ k ≥ l
      · rw [if_pos hl]; exact .ret _
      · rw [if_neg hl]; exact readOnly_look _
  sum_run k c := by
    show (coreUnsafeSum k).run c = _
    unfold coreUnsafeSum Moment.sum
    rw [run_bind, run_look, Go.val_bind]
    dsimp only
    by_cases hn : c.count = 0
    · rw [if_pos hn, if_pos hn]; rfl
    · rw [if_neg hn, if_neg hn, run_bind, run_look, Go.val_bind]
      dsimp only
      by_cases hl : k ≤ 0 ∨ k ≥ c.len
      · rw [if_pos hl, if_pos hl]; rfl
      · rw [if_neg hl, if_neg hl]; rfl

end moment

theorem reservoirSteps_ok {α : Type} : (reservoirSteps (α := α)).OK reservoirMethods where
  push_plain x := by
    refine .act fun _ => (readOnly_look _).plain.bind fun n => (readOnly_look _).plain.bind fun size => ?_
    by_cases h : (n : Int) ≤ size
    · rw [if_pos h]; exact .act fun _ => .ret _
    · rw [if_neg h]
      by_cases h' : (x.2 : Int) < size
      · rw [if_pos h']; exact .act fun _ => .ret _
      · rw [if_neg h']; exact .ret _
  push_run x r := by
    show (reservoirRest x.1 x.2).run { r with count := r.count + 1 } = (do let y ← Sample.push r x.1 x.2; pure (y, none))
    unfold reservoirRest Sample.push
    rw [run_bind, run_look, Go.val_bind, run_bind, run_look, Go.val_bind]
    dsimp only
    by_cases h : ((r.count + 1 : Nat) : Int) ≤ r.size
    · rw [if_pos h, if_pos h]; rfl
    · rw [if_neg h, if_neg h]
      by_cases h' : (x.2 : Int) < r.size
      · rw [if_pos h', if_pos h']
        unfold Prog.run
        dsimp only
        by_cases h'' : x.2 < r.sample.length
        · rw [if_pos h'']; rfl
        · rw [if_neg h'']; rfl
      · rw [if_neg h', if_neg h']; rfl
  get_read _ := readOnly_look _
  get_run _ _ := rfl
  clear_plain := .ret _
  clear_run _ := rfl

section max
variable {F : Type} [GoOrd F] (O : MinMax.Ext F)

theorem maxPut_plain (x : F) : (maxPut x).Plain := by
  refine (plain_call _ _).bind fun e => ?_
  cases e with
  | some e => exact .ret _
  | none => exact .act fun _ => .act fun _ => .act fun _ => .ret _

theorem maxPut_run (x : F) (s : MinMax.Max.St F) : (maxPut x).run s = (match s.queue.put x with
      | .panic => .panic
      | .hang => .hang
      | .val (.error e) => .val (s, some e)
      | .val (.ok q) =>
        .val ({ s with queue := q, count := s.count + 1, deque := (MinMax.Max.popBack x s.deque.reverse).1.reverse ++ [x],
                       removed := s.removed + (MinMax.Max.popBack x s.deque.reverse).2 }, none)) := by
  unfold maxPut
  rw [run_bind, run_call]
  rcases s.queue.put x with (e | q) | _ | _ <;> rfl

theorem maxEvict_run (v : F) (s : MinMax.Max.St F) : (maxEvict v).run s = (match s.deque with
      | [] => .panic
      | f :: d => if f =ᵇ v then .val ({ s with count := s.count - 1, deque := d, removed := s.removed + 1 }, ())
        else .val ({ s with count := s.count - 1 }, ())) := by
  simp only [maxEvict, Prog.run]
  rcases hd : s.deque with _ | ⟨f, d⟩
  · rfl
  · dsimp only
    cases hf : (f =ᵇ v) <;> simp [hd]

theorem maxSteps_ok : (maxSteps O).OK (maxMethods O) where
  push_plain x := by
    refine (readOnly_look _).plain.bind fun w => ?_
    by_cases hw : w ≠ 0
    · rw [if_pos hw]
      refine (readOnly_look _).plain.bind fun n => ?_
      by_cases hn : (n : Int) = w
      · rw [if_pos hn]
        refine (plain_call _ _).bind fun r => ?_
        cases r with
        | error e => exact .ret _
        | ok t => exact Plain.bind (.act fun _ => .act fun _ => .ret _) fun _ => maxPut_plain x
      · rw [if_neg hn]; exact maxPut_plain x
    · rw [if_neg hw]; exact .act fun _ => .act fun _ => .ret _
  push_run x s := by
    show (maxPush O x).run s = MinMax.Max.push O s x
    unfold maxPush MinMax.Max.push MinMax.Max.evict
    rw [run_bind, run_look, Go.val_bind]
    dsimp only
    by_cases hw : s.window ≠ 0
    · rw [if_pos hw, if_pos hw, run_bind, run_look, Go.val_bind]
      dsimp only
      by_cases hn : (s.queue.len : Int) = s.window
      · rw [if_pos hn, if_pos hn, run_bind, run_call]
        rcases s.queue.get with (e | ⟨v, q⟩) | _ | _
        · rfl
        · dsimp only
          rw [Go.val_bind]
          dsimp only
          rw [run_bind, maxEvict_run]
          dsimp only
          rcases s.deque with _ | ⟨f, d⟩
          · rfl
          · dsimp only
            cases hf : (f =ᵇ v) with
            | true =>
              simp only [if_true]
              rw [Go.val_bind, maxPut_run]
              dsimp only
              rcases q.put x with (e | q) | _ | _ <;> rfl
            | false =>
              simp only [Bool.false_eq_true, if_false]
              rw [Go.val_bind, maxPut_run]
              dsimp only
              rcases q.put x with (e | q) | _ | _ <;> rfl
        · rfl
        · rfl
      · rw [if_neg hn, if_neg hn, maxPut_run]
        dsimp only
        rcases s.queue.put x with (e | q) | _ | _ <;> rfl
    · rw [if_neg hw, if_neg hw]; rfl
  get_read _ := by
    refine (readOnly_look _).bind fun n => ?_
    by_cases hn : n = 0
    · rw [if_pos hn]; exact .ret _
    · rw [if_neg hn]
      refine (readOnly_look _).bind fun w => ?_
      by_cases hw : w = 0
      · rw [if_pos hw]; exact readOnly_look _
      · rw [if_neg hw]
        refine .act (fun s s' h => ?_) fun s => ?_
        · rcases hd : s.deque with _ | ⟨f, d⟩
          · rw [hd] at h; cases h
          · rw [hd] at h; cases h; rfl
        · rcases s.deque with _ | ⟨f, d⟩
          · exact .ret _
          · exact .ret _
  get_run _ s := by
    show maxValue.run s = (do let r ← MinMax.Max.value s; pure (s, r))
    unfold maxValue MinMax.Max.value
    rw [run_bind, run_look, Go.val_bind]
    dsimp only
    by_cases hn : s.count = 0
    · rw [if_pos hn, if_pos hn]; rfl
    · rw [if_neg hn, if_neg hn, run_bind, run_look, Go.val_bind]
      dsimp only
      by_cases hw : s.window = 0
      · rw [if_pos hw, if_pos hw]; rfl
      · rw [if_neg hw, if_neg hw]
        unfold Prog.run
        dsimp only
        rcases hd : s.deque with _ | ⟨f, d⟩
        · rfl
        · rfl
  clear_plain := .act fun _ => .act fun _ => .act fun _ => .act fun _ => .ret _
  clear_run _ := rfl

end max

end Verif.Locks
