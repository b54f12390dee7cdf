import Verif.Proofs.SkipRun
import Verif.Proofs.QuantileSpec

/-! # `Quantile` as built by `New` from options -/

set_option linter.unusedSectionVars false

namespace Verif.Quant
open Verif Verif.Spec

section
variable {F : Type} [LinearOrder F]

/-- Whenever a push evicts the oldest value of a full window, that value occurs only once in the window. -/
def EvictsUnique (w : Nat) (ops : List (MOp F)) : Prop :=
  ∀ pre x post, ops = pre ++ .push x :: post → w ≠ 0 → (windowOf w pre).length = w →
    ∀ y ys, windowOf w pre = y :: ys → y ∉ ys

/-- A pushed value is different from the other values of the window it enters. -/
def PushesFresh (w : Nat) (ops : List (MOp F)) : Prop :=
  ∀ pre x post, ops = pre ++ .push x :: post → x ∉ (windowOf w (pre ++ [.push x])).dropLast

/-- What each container needs of the stream: nothing for AVL, `EvictsUnique` for red-black, `PushesFresh` for the skip list. -/
def ImplOK (c : Cfg F) (w : Nat) (ops : List (MOp F)) : Prop :=
  (c.impl = RedBlack → EvictsUnique w ops) ∧ (c.impl = SkipList → PushesFresh w ops)

theorem implOK_avl {c : Cfg F} (h : c.impl = AVL) (w : Nat) (ops : List (MOp F)) : ImplOK c w ops := by
  constructor <;> intro c' <;> rw [h] at c' <;> cases c'

theorem streamOK_rb {w : Nat} {ops : List (MOp F)} (h : EvictsUnique w ops) :
    StreamOK w (fun _ _ => True) (fun S x => S.count x ≤ 1) ops := by
  intro pre x post e
  refine ⟨fun hw hl y ys hy => ⟨?_, trivial⟩, fun _ => trivial⟩
  have := h pre x post e hw hl y ys hy
  show Multiset.count y ((y :: ys : List F) : Multiset F) ≤ 1
  rw [Multiset.coe_count, List.count_cons_self, List.count_eq_zero_of_not_mem this]

theorem streamOK_skip {w : Nat} {ops : List (MOp F)} (h : PushesFresh w ops) :
    StreamOK w (fun S x => x ∉ S) (fun _ _ => True) ops := by
  intro pre x post e
  have h1 := h pre x post e
  rw [windowOf_push] at h1
  constructor
  · intro hw hl y ys hy
    refine ⟨trivial, ?_⟩
    unfold windowOf at hl hy
    rw [lastN_snoc_full hw _ _ hl, hy] at h1
    simpa using h1
  · rintro (rfl | hl)
    · rw [lastN_zero] at h1
      simpa [windowOf, lastN_zero] using h1
    · by_cases hw : w = 0
      · subst hw
        rw [lastN_zero] at h1
        simpa [windowOf, lastN_zero] using h1
      · unfold windowOf at hl ⊢
        rw [lastN_snoc_room hw _ _ hl] at h1
        simpa using h1

theorem statOf_lawful [Nonempty F] (c : Cfg F) (hs : 1 ≤ c.skip.maxLevel) (draws : Nat → Nat → Bool) :
    ∃ okAdd okRem Rep, Lawful (statOf c draws) okAdd okRem Rep ∧ ∀ w ops, ImplOK c w ops → StreamOK w okAdd okRem ops := by
  by_cases h1 : c.impl = RedBlack
  · rw [statOf, if_pos h1]
    exact ⟨_, _, _, rbStat_lawful, fun w ops h => streamOK_rb (h.1 h1)⟩
  · by_cases h2 : c.impl = SkipList
    · rw [statOf, if_neg h1, if_pos h2]
      exact ⟨_, _, _, Skip.skipStat_lawful (by omega) draws, fun w ops h => streamOK_skip (h.2 h2)⟩
    · rw [statOf, if_neg h1, if_neg h2]
      exact ⟨_, _, _, avlStat_lawful, fun w ops _ => streamOK_true w ops⟩

/-! ### Options -/

/-- An `order.Option` is acceptable. -/
def OrderOpt.Ok (zero one : F) : OrderOpt F → Prop
  | .maxLevel n => 1 ≤ n ∧ n ≤ 64
  | .probability p => zero < p ∧ p < one
  | .rand => True

/-- A `quantile.Option` is acceptable. The options passed along with an implementation are looked at only by the skip list. -/
def Opt.Ok (zero one : F) : Opt F → Prop
  | .impl i os => (i = AVL ∨ i = RedBlack ∨ i = SkipList) ∧ (i = SkipList → ∀ o ∈ os, o.Ok zero one)
  | .interpolation i => i = Linear ∨ i = Lower ∨ i = Higher ∨ i = Nearest ∨ i = Midpoint

/-- The maximum level asked for last, if any. -/
def OrderOpt.level? : OrderOpt F → Option Int
  | .maxLevel n => some n
  | _ => none

theorem getLast_cons {α : Type} (a : α) (l : List α) (d : α) : ((a :: l).getLast?).getD d = (l.getLast?).getD a := by
  cases l with
  | nil => rfl
  | cons b l => simp [List.getLast?_cons]

theorem skipNew_spec (zero one : F) (os : List (OrderOpt F)) (c : SkipCfg F) :
    ((∀ o ∈ os, o.Ok zero one) → ∃ c', skipNew zero one os c = .ok c' ∧
      c'.maxLevel = ((os.filterMap OrderOpt.level?).getLast?).getD c.maxLevel) ∧
    ((¬ ∀ o ∈ os, o.Ok zero one) → ∃ e, skipNew zero one os c = .error e) := by
  induction os generalizing c with
  | nil => simp [skipNew]
  | cons o os ih =>
    cases o with
    | maxLevel n =>
      by_cases hn : n < 1 ∨ n > 64
      · refine ⟨fun h => ?_, fun _ => ⟨_, by rw [skipNew, if_pos hn]⟩⟩
        have := h (.maxLevel n) (by simp)
        simp only [OrderOpt.Ok] at this; omega
      · rw [skipNew, if_neg hn]
        have hn' : (OrderOpt.maxLevel n : OrderOpt F).Ok zero one := by simp only [OrderOpt.Ok]; omega
        obtain ⟨h1, h2⟩ := ih { c with maxLevel := n }
        refine ⟨fun h => ?_, fun h => h2 (fun h' => h (by simpa [hn'] using h'))⟩
        obtain ⟨c', e, hc⟩ := h1 (fun o ho => h o (by simp [ho]))
        refine ⟨c', e, ?_⟩
        rw [hc, List.filterMap_cons]
        simp [OrderOpt.level?, getLast_cons]
    | probability p =>
      by_cases hp : (p ≤ zero) ∨ (one ≤ p)
      · refine ⟨fun h => ?_, fun _ => ⟨_, by rw [skipNew, if_pos (by simpa using hp)]⟩⟩
        have := h (.probability p) (by simp)
        simp only [OrderOpt.Ok] at this
        rcases hp with hp | hp
        · exact absurd this.1 (not_lt.2 hp)
        · exact absurd this.2 (not_lt.2 hp)
      · rw [skipNew, if_neg (by simpa using hp)]
        have hp' : (OrderOpt.probability p : OrderOpt F).Ok zero one := by
          simp only [OrderOpt.Ok]; push Not at hp; exact hp
        obtain ⟨h1, h2⟩ := ih { c with p := some p }
        refine ⟨fun h => ?_, fun h => h2 (fun h' => h (by simpa [hp'] using h'))⟩
        obtain ⟨c', e, hc⟩ := h1 (fun o ho => h o (by simp [ho]))
        exact ⟨c', e, by rw [hc, List.filterMap_cons]; simp [OrderOpt.level?]⟩
    | rand =>
      obtain ⟨h1, h2⟩ := ih c
      refine ⟨fun h => ?_, fun h => ?_⟩
      · obtain ⟨c', e, hc⟩ := h1 (fun o ho => h o (by simp [ho]))
        exact ⟨c', e, by rw [hc, List.filterMap_cons]; simp [OrderOpt.level?]⟩
      · exact h2 (fun h' => h (by simpa [OrderOpt.Ok] using h'))

theorem skipNew_pos (zero one : F) {os : List (OrderOpt F)} {c c' : SkipCfg F} (hc : 1 ≤ c.maxLevel)
    (h : skipNew zero one os c = .ok c') : 1 ≤ c'.maxLevel := by
  induction os generalizing c with
  | nil => simp [skipNew] at h; subst h; exact hc
  | cons o os ih =>
    cases o with
    | maxLevel n =>
      rw [skipNew] at h
      split_ifs at h with hn
      exact ih (c := { c with maxLevel := n }) (by show 1 ≤ n; omega) h
    | probability p =>
      rw [skipNew] at h
      split_ifs at h with hp
      exact ih (c := { c with p := some p }) hc h
    | rand => exact ih hc h

/-- The implementation chosen by an option, if it is an `ImplOption`. -/
def Opt.impl? : Opt F → Option Int
  | .impl i _ => some i
  | _ => none

/-- The interpolation chosen by an option, if it is an `InterpolationOption`. -/
def Opt.interp? : Opt F → Option Int
  | .interpolation i => some i
  | _ => none

theorem applyOpts_spec (zero one : F) (os : List (Opt F)) (c : Cfg F) (hc : 1 ≤ c.skip.maxLevel) :
    ((∀ o ∈ os, o.Ok zero one) → ∃ c', applyOpts zero one c os = .ok c' ∧ c'.window = c.window ∧ 1 ≤ c'.skip.maxLevel ∧
      c'.impl = ((os.filterMap Opt.impl?).getLast?).getD c.impl ∧
      c'.interpolation = ((os.filterMap Opt.interp?).getLast?).getD c.interpolation) ∧
    ((¬ ∀ o ∈ os, o.Ok zero one) → ∃ e, applyOpts zero one c os = .error e) := by
  induction os generalizing c with
  | nil => simp [applyOpts, hc]
  | cons o os ih =>
    -- one step
    have key : (o.Ok zero one → ∃ c1, applyOpt zero one c o = .ok c1 ∧ c1.window = c.window ∧ 1 ≤ c1.skip.maxLevel ∧
        c1.impl = (o.impl?).getD c.impl ∧ c1.interpolation = (o.interp?).getD c.interpolation) ∧
        (¬ o.Ok zero one → ∃ e, applyOpt zero one c o = .error e) := by
      cases o with
      | impl i l =>
        by_cases hv : i = AVL ∨ i = RedBlack ∨ i = SkipList
        · have hv' : implValid i = true := by simpa [implValid, or_assoc] using hv
          by_cases hsk : i = SkipList
          · obtain ⟨h1, h2⟩ := skipNew_spec zero one l ⟨12, none⟩
            constructor
            · intro h
              obtain ⟨c', e, -⟩ := h1 (h.2 hsk)
              refine ⟨{ c with impl := i, skip := c' }, ?_, rfl, skipNew_pos zero one (by simp) e, rfl, rfl⟩
              simp [applyOpt, hsk, hsk ▸ hv', e]
            · intro h
              obtain ⟨e, he⟩ := h2 (fun h' => h ⟨hv, fun _ => h'⟩)
              exact ⟨e, by simp [applyOpt, hsk, hsk ▸ hv', he]⟩
          · constructor
            · intro h
              exact ⟨{ c with impl := i }, by simp only [applyOpt, hv']; simp [hsk], rfl, hc, rfl, rfl⟩
            · intro h; exact absurd ⟨hv, fun h' => absurd h' hsk⟩ h
        · have hv' : implValid i = false := by
            have : ¬ implValid i = true := by simpa [implValid, or_assoc] using hv
            simpa using this
          exact ⟨fun h => absurd h.1 hv, fun _ => ⟨_, if_pos (by simp [hv'])⟩⟩
      | interpolation i =>
        by_cases hv : i = Linear ∨ i = Lower ∨ i = Higher ∨ i = Nearest ∨ i = Midpoint
        · have hv' : interpValid i = true := by simpa [interpValid, or_assoc] using hv
          exact ⟨fun _ => ⟨{ c with interpolation := i }, by simp [applyOpt, hv'], rfl, hc, rfl, rfl⟩, fun h => absurd hv h⟩
        · have hv' : interpValid i = false := by
            have : ¬ interpValid i = true := by simpa [interpValid, or_assoc] using hv
            simpa using this
          exact ⟨fun h => absurd h hv, fun _ => ⟨_, if_pos (by simp [hv'])⟩⟩
    constructor
    · intro h
      obtain ⟨c1, e1, w1, s1, i1, t1⟩ := key.1 (h o (by simp))
      obtain ⟨c2, e2, w2, s2, i2, t2⟩ := (ih c1 s1).1 (fun o' ho => h o' (by simp [ho]))
      refine ⟨c2, by rw [applyOpts, e1]; exact e2, w2.trans w1, s2, ?_, ?_⟩
      · rw [i2, i1, List.filterMap_cons]
        cases o <;> simp [Opt.impl?, getLast_cons]
      · rw [t2, t1, List.filterMap_cons]
        cases o <;> simp [Opt.interp?, getLast_cons]
    · intro h
      by_cases ho : o.Ok zero one
      · obtain ⟨c1, e1, w1, s1, i1, t1⟩ := key.1 ho
        obtain ⟨e, he⟩ := (ih c1 s1).2 (fun h' => h (by simpa [ho] using h'))
        exact ⟨e, by rw [applyOpts, e1]; exact he⟩
      · obtain ⟨e, he⟩ := key.2 ho
        exact ⟨e, by rw [applyOpts, he]⟩

theorem new_spec (zero one : F) (window : Int) (os : List (Opt F)) :
    (0 ≤ window ∧ (∀ o ∈ os, o.Ok zero one) → ∃ c, new zero one window os = .ok c ∧ c.window = window ∧ 1 ≤ c.skip.maxLevel ∧
      c.impl = ((os.filterMap Opt.impl?).getLast?).getD AVL ∧
      c.interpolation = ((os.filterMap Opt.interp?).getLast?).getD Linear) ∧
    (¬ (0 ≤ window ∧ ∀ o ∈ os, o.Ok zero one) → ∃ e, new zero one window os = .error e) := by
  obtain ⟨h1, h2⟩ := applyOpts_spec zero one os ⟨window, AVL, ⟨12, none⟩, Linear⟩ (by simp)
  constructor
  · intro h
    obtain ⟨c, e, r⟩ := h1 h.2
    exact ⟨c, by rw [new, if_neg (by omega)]; exact e, r⟩
  · intro h
    by_cases hw : window < 0
    · exact ⟨_, by rw [new, if_pos hw]⟩
    · obtain ⟨e, he⟩ := h2 (fun h' => h ⟨by omega, h'⟩)
      exact ⟨e, by rw [new, if_neg hw]; exact he⟩

theorem interp_code {i : Int} (h : i = Linear ∨ i = Lower ∨ i = Higher ∨ i = Nearest ∨ i = Midpoint) : ∃ m, i = code m := by
  rcases h with h | h | h | h | h
  exacts [⟨.linear, h⟩, ⟨.lower, h⟩, ⟨.higher, h⟩, ⟨.nearest, h⟩, ⟨.midpoint, h⟩]

theorem code_inj {m m' : Method} (h : code m = code m') : m = m' := by cases m <;> cases m' <;> first | rfl | cases h

theorem new_ok {zero one : F} {window : Int} {os : List (Opt F)} {c : Cfg F} (h : new zero one window os = .ok c) :
    0 ≤ window ∧ c.window = window ∧ 1 ≤ c.skip.maxLevel ∧ (c.impl = AVL ∨ c.impl = RedBlack ∨ c.impl = SkipList) ∧
      (∃ m, c.interpolation = code m) ∧
      c.impl = ((os.filterMap Opt.impl?).getLast?).getD AVL ∧
      c.interpolation = ((os.filterMap Opt.interp?).getLast?).getD Linear := by
  obtain ⟨h1, h2⟩ := new_spec zero one window os
  by_cases hc : 0 ≤ window ∧ ∀ o ∈ os, o.Ok zero one
  · obtain ⟨c', e, r1, r2, r3, r4⟩ := h1 hc
    rw [e] at h; cases h
    refine ⟨hc.1, r1, r2, ?_, ?_, r3, r4⟩
    · rw [r3]
      rcases hg : (os.filterMap Opt.impl?).getLast? with _ | i
      · exact Or.inl rfl
      · have := List.mem_of_getLast? hg
        rw [List.mem_filterMap] at this
        obtain ⟨o, ho, hi⟩ := this
        have hok := hc.2 o ho
        cases o with
        | impl j l => simp only [Opt.impl?, Option.some.injEq] at hi; subst hi; exact hok.1
        | interpolation j => simp [Opt.impl?] at hi
    · rw [r4]
      rcases hg : (os.filterMap Opt.interp?).getLast? with _ | i
      · exact ⟨.linear, rfl⟩
      · have := List.mem_of_getLast? hg
        rw [List.mem_filterMap] at this
        obtain ⟨o, ho, hi⟩ := this
        have hok := hc.2 o ho
        cases o with
        | impl j l => simp [Opt.interp?] at hi
        | interpolation j => simp only [Opt.interp?, Option.some.injEq] at hi; subst hi; exact interp_code hok
  · obtain ⟨e, he⟩ := h2 hc
    rw [he] at h; cases h

end

/-! ### Main lemma -/

section
variable {K : Type} [Field K] [LinearOrder K] [IsStrictOrderedRing K] [FloorRing K]

/-- Everything about a `Quantile` built by `New`, in exact arithmetic. -/
theorem quantile_main {window : Int} {os : List (Opt K)} {c : Cfg K} (hn : new 0 1 window os = .ok c)
    (draws : Nat → Nat → Bool) (ops : List (MOp K)) (hok : ImplOK c window.toNat ops) {m : Method} (hm : c.interpolation = code m) :
    ∃ q, (ofCfg c draws).run ops = .val (q, []) ∧
      ((statOf c draws).size q.statistic = (windowOf window.toNat ops).length) ∧
      (∀ O : FOps K, O.ofInt 0 = 0 → O.ofInt 1 = 1 → ∀ x, x ≤ 0 ∨ 1 ≤ x ∨ windowOf window.toNat ops = [] →
        ∃ e, q.value O x = .val (.error e)) ∧
      (∀ x, 0 < x → x < 1 → windowOf window.toNat ops ≠ [] →
        ∃ v, q.value (exact K) x = .val (.ok v) ∧ IsQuantile m (windowOf window.toNat ops : List K) x v) ∧
      (∀ (O : FOps K) x, 0 < x → x < 1 → windowOf window.toNat ops ≠ [] →
        IndexSound O (windowOf window.toNat ops).length x → ∃ v, q.value O x = .val (.ok v)) := by
  obtain ⟨h0, hw, hs, -, -, -, -⟩ := new_ok hn
  obtain ⟨okAdd, okRem, Rep, L, hL⟩ := statOf_lawful c hs draws
  obtain ⟨q, e, i⟩ := run_spec L window.toNat c.interpolation ops (hL _ _ hok)
  have hfr : ofCfg c draws = Quantile.fresh (statOf c draws) (window.toNat : Int) c.interpolation := by
    rw [ofCfg, hw, Int.toNat_of_nonneg h0]
  have hsz : (statOf c draws).size q.statistic = (windowOf window.toNat ops).length := by
    rw [L.size i.rep]; simp
  have hi : q.interpolation = code m := i.interp.trans hm
  refine ⟨q, by rw [hfr]; exact e, hsz, ?_, ?_, ?_⟩
  · intro O hz ho x hx
    rcases hx with hx | hx | hx
    · exact ⟨_, if_pos (by simp [hz, hx])⟩
    · exact ⟨_, if_pos (by simp [ho, hx])⟩
    · rw [hx] at hsz
      by_cases hq : (x ≤ 0) ∨ (1 ≤ x)
      · exact ⟨_, if_pos (by simpa [hz, ho] using hq)⟩
      · exact ⟨_, (if_neg (by simpa [hz, ho] using hq)).trans (if_pos hsz)⟩
  · intro x h1 h2 hne
    exact value_exact L i.rep m hi h1 h2 (by simpa using hne)
  · intro O x h1 h2 hne ho
    rcases value_spec L i.rep m hi h1 h2 (by simpa using hne) (O := O) (by simpa using ho) with
      ⟨_, _, v, h, _⟩ | ⟨_, _, _, _, _, _, _, h⟩
    · exact ⟨v, h⟩
    · exact ⟨_, h⟩

end

end Verif.Quant
