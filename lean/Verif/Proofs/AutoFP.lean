import Verif.Model.AutoFP
import Verif.Proofs.JointMetric
import Verif.Props.JointNumeric

/-! # `Autocov` and `Autocorr` over an arbitrary arithmetic

The core of the metric is at each moment the core that has been given the lagged pairs one after the other. -/

namespace Verif.JFP
open Verif.Spec
open Verif.FP (Arith)
open Verif.Joint (Auto Core zipWith_snoc)

section lists
variable {F : Type}

theorem lagged_short {lag : Nat} {xs : List F} (h : xs.length < lag) (x : F) : lagged lag (xs ++ [x]) = [] := by
  unfold lagged
  rw [List.drop_eq_nil_of_le (by simp; omega)]
  rfl

theorem lagged_nil {lag : Nat} {xs : List F} : lagged lag xs = [] ↔ xs.length ≤ lag := by
  unfold lagged
  rw [List.zipWith_eq_nil_iff, List.drop_eq_nil_iff]
  constructor
  · rintro (h | h)
    · exact h
    · simp [h]
  · exact Or.inl

theorem lagged_add {lag : Nat} {xs : List F} (h : lag ≤ xs.length) (x : F) {y : F} {rest : List F}
    (hy : (xs ++ [x]).drop (xs.length - lag) = y :: rest) : lagged lag (xs ++ [x]) = lagged lag xs ++ [[x, y]] := by
  have e : xs ++ [x] = (xs ++ [x]).take (xs.length - lag) ++ y :: rest := by rw [← hy, List.take_append_drop]
  have ht : (xs ++ [x]).take (xs.length - lag) = xs.take (xs.length - lag) := List.take_append_of_le_length (by omega)
  rw [ht] at e
  unfold lagged
  rw [List.drop_append_of_le_length (by omega)]
  conv_lhs => arg 3; rw [e]
  rw [zipWith_snoc _ _ _ _ _ _ (by simp)]
  congr 1
  have e2 : xs = xs.take (xs.length - lag) ++ xs.drop (xs.length - lag) := (List.take_append_drop _ _).symm
  have hl : (xs.drop lag).length = (xs.take (xs.length - lag)).length := by simp
  conv_rhs => arg 3; rw [e2]
  conv_rhs => rw [← List.append_nil (xs.drop lag)]
  rw [List.zipWith_append hl]
  simp

theorem lagged_arity (lag : Nat) (xs : List F) : ∀ p ∈ lagged lag xs, p.length = 2 := by
  intro p hp
  unfold lagged at hp
  rw [List.zipWith_eq_zipWith_take_min] at hp
  obtain ⟨i, hi, rfl⟩ := List.mem_iff_getElem.1 hp
  simp

theorem since_pushes {α : Type} (xs : List α) : since (xs.map MOp.push) = xs := by
  induction xs using List.reverseRecOn with
  | nil => rfl
  | append_singleton xs x ih => rw [List.map_append, List.map_cons, List.map_nil, since_push, ih]

theorem filter_pushes {n : Nat} {xs : List (List F)} (h : ∀ x ∈ xs, x.length = n) :
    (xs.map MOp.push).filter (okArity n) = xs.map MOp.push := by
  rw [List.filter_eq_self]
  intro o ho
  obtain ⟨x, hx, rfl⟩ := List.mem_map.1 ho
  simp [okArity, h x hx]

end lists

variable {F : Type} [GoOrd F] (A : Arith F)

/-- The configuration of the inner metric. -/
def autoConfig (F : Type) (corr : Bool) (w : Nat) : Joint.Config F :=
  ⟨some (if corr then [[1, 1], [2, 0], [0, 2]] else [[1, 1]]), some (w : Int), none, none⟩

theorem auto_newCore (corr : Bool) (w : Nat) : ∃ c, newCore A (autoConfig F corr w) = .val (.ok c) := by
  cases corr <;> (unfold newCore Joint.validate Joint.setDefaults; exact ⟨_, rfl⟩)

theorem auto_exp (corr : Bool) (w : Nat) : ∀ t ∈ (autoConfig F corr w).sums.getD [], ∀ k ∈ t, k ≤ 65 := by
  cases corr <;> simp [autoConfig]

theorem auto_vars (corr : Bool) (w : Nat) : Joint.varsOf (autoConfig F corr w) = (2 : Nat) := by
  cases corr <;> rfl

/-- The state of an `Autocov` or `Autocorr` after the values `xs`; `c` is the new core. -/
structure ATrack (c : Core F) (lag w : Nat) (xs : List F) (corr : Bool) (a : Auto F) : Prop where
  kind : a.corr = corr
  hlag : a.lag = lag
  window : a.window = w
  cap : a.queue.cap = Ring.roundUp lag
  live : a.queue.disposed = false
  q : a.queue.items = if lag = 0 then [] else lastN lag xs
  core : ∃ e, a.core = some e ∧ run A c ((lagged lag xs).map MOp.push) = .val (e, [])

variable {corr : Bool} {lag w : Nat} {c : Core F}

theorem auto_core (hn : newCore A (autoConfig F corr w) = .val (.ok c)) {ps : List (List F)} (hp : ∀ p ∈ ps, p.length = 2) :
    ∃ e, run A c (ps.map MOp.push) = .val (e, []) ∧ Book 2 w none ((autoConfig F corr w).sums.getD []) ps e := by
  obtain ⟨e, r, B, -⟩ := core_track A hn (auto_exp corr w) (w := w) rfl (auto_vars corr w) (track_true A 2 w _ _) (ps.map MOp.push)
  rw [filter_pushes hp, since_pushes] at B
  refine ⟨e, ?_, B⟩
  rw [r]
  have : (ps.map MOp.push).filter (fun o => !okArity 2 o) = [] := by
    rw [List.filter_eq_nil_iff]
    intro o ho
    obtain ⟨x, hx, rfl⟩ := List.mem_map.1 ho
    simp [okArity, hp x hx]
  simp [arityErrors, this]

theorem core_push (hn : newCore A (autoConfig F corr w) = .val (.ok c)) {ps : List (List F)} (hp : ∀ p ∈ ps, p.length = 2) {e : Core F}
    (r : run A c (ps.map MOp.push) = .val (e, [])) (x y : F) :
    ∃ e', push A e [x, y] = .val (e', none) ∧ run A c ((ps ++ [[x, y]]).map MOp.push) = .val (e', []) := by
  obtain ⟨e', r', -⟩ := auto_core A hn (ps := ps ++ [[x, y]]) (by
    intro p h
    rcases List.mem_append.1 h with h | h
    · exact hp p h
    · rw [List.mem_singleton.1 h]; rfl)
  refine ⟨e', ?_, r'⟩
  unfold run at r r'
  rw [List.map_append, Go.runOps_append, r] at r'
  simp only [List.map_cons, List.map_nil, Go.runOps, logged, step] at r'
  cases h : push A e [x, y] with
  | panic => rw [h] at r'; simp at r'
  | hang => rw [h] at r'; simp at r'
  | val s =>
    obtain ⟨s, o⟩ := s
    rw [h] at r'
    cases o with
    | none => simpa using r'
    | some err => simp at r'

theorem auto_push (hn : newCore A (autoConfig F corr w) = .val (.ok c)) {xs : List F} {a : Auto F} (h : ATrack A c lag w xs corr a) (x : F) :
    ∃ a', Auto.push A a x = .val (a', none) ∧ ATrack A c lag w (xs ++ [x]) corr a' := by
  obtain ⟨e, he, r⟩ := h.core
  unfold Auto.push
  rw [he]
  simp only
  by_cases h0 : lag = 0
  · subst h0
    rw [if_pos (by rw [h.hlag]; rfl)]
    obtain ⟨e', p, r'⟩ := core_push A hn (lagged_arity 0 xs) r x x
    rw [p]
    refine ⟨_, rfl, ⟨h.kind, h.hlag, h.window, h.cap, h.live, h.q, e', rfl, ?_⟩⟩
    rw [lagged_add (Nat.zero_le _) x (y := x) (rest := []) (by simp)]
    exact r'
  · have hlag : ¬ a.lag = 0 := by rw [h.hlag]; exact_mod_cast h0
    rw [if_neg hlag]
    have hq := h.q
    rw [if_neg h0] at hq
    have hlen : a.queue.len = (lastN lag xs).length := by rw [Ring.len, hq]
    by_cases hfull : lag ≤ xs.length
    · have hll : (lastN lag xs).length = lag := by rw [lastN_length]; simp [h0]; omega
      rw [if_pos (by rw [hlen, hll, h.hlag])]
      obtain ⟨y, ys, hyys⟩ : ∃ y ys, lastN lag xs = y :: ys := by
        cases hl : lastN lag xs with
        | nil => rw [hl] at hll; exact absurd hll.symm h0
        | cons y ys => exact ⟨y, ys, rfl⟩
      have hlast : lastN lag xs = xs.drop (xs.length - lag) := by simp [lastN, h0]
      have hdrop : (xs ++ [x]).drop (xs.length - lag) = y :: (ys ++ [x]) := by
        rw [List.drop_append_of_le_length (by omega), ← hlast, hyys]; rfl
      obtain ⟨e', p, r'⟩ := core_push A hn (lagged_arity lag xs) r x y
      have hlt : ys.length < lag := by rw [hyys] at hll; simp at hll; omega
      have hput : Ring.put { a.queue with items := ys } x = .val (.ok { a.queue with items := ys ++ [x] }) :=
        Ring.put_ok (r := { a.queue with items := ys }) h.live (by show ys.length < a.queue.cap; rw [h.cap]; exact lt_of_lt_of_le hlt (Ring.le_roundUp lag)) x
      unfold Auto.pair
      rw [Ring.get_ok h.live (hq.trans hyys)]
      simp only
      rw [p]
      simp only [Auto.put]
      rw [hput]
      refine ⟨_, rfl, ⟨h.kind, h.hlag, h.window, h.cap, h.live, ?_, e', rfl, ?_⟩⟩
      · show ys ++ [x] = _
        rw [if_neg h0, lastN_snoc_full h0 _ _ hll, hyys]; rfl
      · rw [lagged_add hfull x hdrop]
        exact r'
    · have hll : (lastN lag xs).length ≠ lag := by rw [lastN_length]; simp [h0]; omega
      have hle := lastN_length_le h0 xs
      rw [if_neg (by rw [hlen, h.hlag]; omega)]
      have hput : a.queue.put x = .val (.ok { a.queue with items := a.queue.items ++ [x] }) :=
        Ring.put_ok h.live (by rw [hq, h.cap]; exact lt_of_lt_of_le (by omega) (Ring.le_roundUp lag)) x
      unfold Auto.put
      rw [hput]
      refine ⟨_, rfl, ⟨h.kind, h.hlag, h.window, h.cap, h.live, ?_, e, he, ?_⟩⟩
      · show a.queue.items ++ [x] = _
        rw [if_neg h0, hq, lastN_snoc_room h0 _ _ hll]
      · rw [lagged_short (by omega)]
        rwa [lagged_nil.2 (by omega)] at r

theorem auto_clear (hn : newCore A (autoConfig F corr w) = .val (.ok c)) {xs : List F} {a : Auto F} (h : ATrack A c lag w xs corr a) :
    Auto.clear A a = ⟨corr, lag, w, Ring.new lag, some c⟩ := by
  obtain ⟨e, he, r⟩ := h.core
  obtain ⟨es, hc⟩ := Props.C78_clear_partial A hn (auto_exp corr w) ((lagged lag xs).map MOp.push)
  unfold run at hc r
  rw [Go.runOps_append, r] at hc
  simp [Go.runOps, logged, step] at hc
  unfold Auto.clear
  rw [he]
  simp only
  rw [hc.1, h.kind, h.window, h.hlag, Int.toNat_natCast]

theorem track_new : ATrack A c lag w [] corr ⟨corr, lag, w, Ring.new lag, some c⟩ :=
  ⟨rfl, rfl, rfl, by simp [Ring.new], rfl, by simp [Ring.new], c, rfl, by simp [lagged, run, Go.runOps]⟩

theorem auto_run (hn : newCore A (autoConfig F corr w) = .val (.ok c)) (ops : List (MOp F)) :
    ∃ a', Auto.run A ⟨corr, lag, w, Ring.new lag, some c⟩ ops = .val (a', []) ∧ ATrack A c lag w (since ops) corr a' := by
  induction ops using List.reverseRecOn with
  | nil => exact ⟨_, rfl, track_new A⟩
  | append_singleton ops op ih =>
    obtain ⟨a', e, hA⟩ := ih
    unfold Auto.run at e ⊢
    rw [Go.runOps_append, e]
    cases op with
    | push x =>
      obtain ⟨a'', e', hA'⟩ := auto_push A hn hA x
      exact ⟨a'', by simp [Go.runOps, logged, Auto.step, e'], by rw [since_push]; exact hA'⟩
    | clear =>
      refine ⟨Auto.clear A a', by simp [Go.runOps, logged, Auto.step], ?_⟩
      rw [since_clear, auto_clear A hn hA]
      exact track_new A

theorem auto_init (hn : newCore A (autoConfig F corr w) = .val (.ok c)) :
    Auto.init A ⟨corr, lag, w, Ring.new lag, none⟩ = .val (⟨corr, lag, w, Ring.new lag, some c⟩, none) := by
  have hk : (Joint.Auto.kind (⟨corr, lag, w, Ring.new lag, none⟩ : Auto F)).config = autoConfig F corr w := by cases corr <;> rfl
  unfold Auto.init
  rw [hk, hn]

end Verif.JFP
