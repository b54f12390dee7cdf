import Verif.Proofs.QuantileCfg
import Verif.Proofs.AvlNaN
import Verif.Proofs.RbWeak

/-! # What holds for `Quantile` with every container and every stream that does not panic

`R S s` says: the container `s` is consistent and holds nothing outside the multiset `S`. -/

set_option linter.unusedSectionVars false

namespace Verif.Quant
open Verif Verif.Spec

section
variable {F : Type} [LinearOrder F]

/-- Partial-correctness laws. -/
structure Weak (st : Statistic F) (R : Multiset F → st.σ → Prop) : Prop where
  empty : R 0 st.empty
  add : ∀ {S s s'}, R S s → ∀ x, st.add s x = .val s' → R (x ::ₘ S) s'
  remove : ∀ {S s s'}, R S s → ∀ x, st.remove s x = .val s' → R (S.erase x) s'
  clear : ∀ {S s}, R S s → R 0 (st.clear s)
  size : ∀ {S s}, R S s → 0 ≤ st.size s
  size_le : ∀ {S s}, R S s → st.size s ≤ S.card
  size_zero : ∀ {s}, R 0 s → st.size s = 0
  add_pos : ∀ {S s s'}, R S s → ∀ x, st.add s x = .val s' → 0 < st.size s'
  sel_in : ∀ {S s}, R S s → ∀ k, 0 ≤ k → k < st.size s → ∃ v ∈ S, st.select s k = .val (some v)
  sel_out : ∀ {S s}, R S s → ∀ k, k < 0 ∨ st.size s ≤ k → st.select s k = .val none

theorem avlStat_weak : Weak (avlStat F) Avl.Tree.Inv where
  empty := Avl.Tree.Inv.empty
  add h x e := by
    obtain ⟨s', e', i⟩ := h.add x
    have : (avlStat F).add _ x = .val s' := e'
    rw [e] at this; cases this; exact i
  remove h x e := by
    obtain ⟨s', e', i⟩ := h.remove x
    have : (avlStat F).remove _ x = .val s' := e'
    rw [e] at this; cases this; exact i
  clear _ := Avl.Tree.Inv.empty
  size h := by
    have := h.size
    show 0 ≤ Avl.Tree.size _
    omega
  size_le h := h.size.le
  size_zero h := h.size
  add_pos h x e := by
    obtain ⟨s', e', i⟩ := h.add x
    have : (avlStat F).add _ x = .val s' := e'
    rw [e] at this; cases this
    have := i.size
    show 0 < Avl.Tree.size _
    rw [this]; simp
  sel_in {S s} h k h0 h1 := by
    obtain ⟨v, e, hv⟩ := kth_isKth S h0 (by rw [← h.size]; exact h1)
    exact ⟨v, hv.1, by show Go.val (Avl.Tree.select _ _) = _; rw [h.select, e]⟩
  sel_out {S s} h k hk := by
    show Go.val (Avl.Tree.select _ _) = _
    rw [h.select, kth_out]; rw [← h.size]; exact hk

theorem skipStat_weak [Nonempty F] {M : Nat} (hM : 0 < M) (draws : Nat → Nat → Bool) :
    Weak (skipStat F M draws) (Skip.Rep M) where
  empty := (Skip.RepE.new hM draws).rep
  add {S s s'} h x e := by
    obtain ⟨s1, e', i⟩ := h.step (.add x)
    have : (skipStat F M draws).add s x = .val s1 := e'
    rw [e] at this; cases this; exact i
  remove {S s s'} h x e := by
    obtain ⟨s1, e', i⟩ := h.step (.remove x)
    have : (skipStat F M draws).remove s x = .val s1 := e'
    rw [e] at this; cases this; exact i
  clear h := by
    obtain ⟨s', e, h'⟩ := h.step .clear
    cases e; exact h'
  size h := by
    have := Skip.skip_size h
    show 0 ≤ Skip.SkipList.size _
    omega
  size_le h := (Skip.skip_size h).le
  size_zero h := Skip.skip_size h
  add_pos {S s s'} h x e := by
    obtain ⟨s1, e', i⟩ := h.step (.add x)
    have : (skipStat F M draws).add s x = .val s1 := e'
    rw [e] at this; cases this
    have := Skip.skip_size i
    show 0 < Skip.SkipList.size _
    rw [this]; simp [bagStep]
  sel_in {S s} h k h0 h1 := by
    have hs := Skip.skip_size h
    obtain ⟨-, A, V, h2, rfl⟩ := h
    obtain ⟨r, e, -, g, -⟩ := h2.select k
    have h1' : k < (A.length : Int) := by
      have : s.size = (A.length : Int) := by rw [hs]; simp
      rw [← this]; exact h1
    obtain ⟨a, ha, hr⟩ := g h0 h1'
    exact ⟨V a, by simpa using ⟨a, ha, rfl⟩, by rw [← hr]; exact e⟩
  sel_out {S s} h k hk := by
    have hs := Skip.skip_size h
    obtain ⟨-, A, V, h2, rfl⟩ := h
    obtain ⟨r, e, g, -, -⟩ := h2.select k
    have h1' : k < 0 ∨ (A.length : Int) ≤ k := by
      have : s.size = (A.length : Int) := by rw [hs]; simp
      rw [← this]; exact hk
    rw [← g h1']; exact e

/-- Red-black: sizes right, sorted, contents within `S`. -/
def RbRep (S : Multiset F) (t : Rb.Tree F) : Prop :=
  t.root.SizeOK ∧ t.root.toList.Pairwise (· ≤ ·) ∧ (t.root.toList : Multiset F) ≤ S

theorem rb_add_val {t t' : Rb.Tree F} {x : F} (h : t.add x = .val t') : ∃ r, t.root.add x = .val r ∧ t' = ⟨r⟩ := by
  simp only [Rb.Tree.add] at h
  rw [Go.bind_eq_val] at h
  obtain ⟨r, e1, e2⟩ := h
  cases e2
  exact ⟨r, e1, rfl⟩

theorem rb_remove_val {t t' : Rb.Tree F} {x : F} (h : t.remove x = .val t') :
    ∃ r, Rb.Node.remove (t.root.nodes + 1) t.root x = .val r ∧ t' = ⟨r⟩ := by
  simp only [Rb.Tree.remove] at h
  rw [Go.bind_eq_val] at h
  obtain ⟨r, e1, e2⟩ := h
  cases e2
  exact ⟨r, e1, rfl⟩

theorem rbStat_weak : Weak (rbStat F) RbRep where
  empty := ⟨trivial, by simp [rbStat, Rb.Tree.empty, Rb.Node.toList], Multiset.zero_le _⟩
  add {S s s'} h x e := by
    have e' : Rb.Tree.add s x = .val s' := e
    obtain ⟨r, e1, rfl⟩ := rb_add_val e'
    obtain ⟨a, b⟩ := Rb.Node.add_weak x e1 h.1
    refine ⟨a, Rb.Node.add_sorted x e1 h.1 h.2.1, ?_⟩
    rw [Multiset.coe_eq_coe.2 b, ← Multiset.cons_coe]
    exact Multiset.cons_le_cons x h.2.2
  remove {S s s'} h x e := by
    have e' : Rb.Tree.remove s x = .val s' := e
    obtain ⟨r, e1, rfl⟩ := rb_remove_val e'
    obtain ⟨a, b⟩ := Rb.Node.remove_weak _ x e1 h.1
    exact ⟨a, h.2.1.sublist b, (Rb.Node.remove_le_erase _ x e1 h.1 h.2.1).trans (Multiset.erase_le_erase x h.2.2)⟩
  clear _ := ⟨trivial, by simp [rbStat, Rb.Tree.clear, Rb.Tree.empty, Rb.Node.toList], Multiset.zero_le _⟩
  size {S s} h := by
    show 0 ≤ Rb.Node.size _
    rw [h.1.size_eq]; omega
  size_le {S s} h := by
    show Rb.Node.size _ ≤ _
    have := Multiset.card_le_card h.2.2
    rw [h.1.size_eq]; simpa using this
  size_zero {s} h := by
    show Rb.Node.size _ = _
    have := Multiset.card_le_card h.2.2
    simp at this
    rw [h.1.size_eq, this]; rfl
  add_pos {S s s'} h x e := by
    have e' : Rb.Tree.add s x = .val s' := e
    obtain ⟨r, e1, rfl⟩ := rb_add_val e'
    obtain ⟨a, b⟩ := Rb.Node.add_weak x e1 h.1
    show 0 < Rb.Node.size r
    rw [a.size_eq, b.length_eq]; simp
  sel_in {S s} h k h0 h1 := by
    obtain ⟨v, hv, e⟩ := Rb.Node.select_in h.1 h0 h1
    exact ⟨v, Multiset.mem_of_le h.2.2 (by simpa using hv), congrArg Go.val e⟩
  sel_out h k hk := congrArg Go.val (Rb.Node.select_none h.1 hk)

/-- Invariant of the struct, also in the middle of a push. -/
structure WInv0 {st : Statistic F} (R : Multiset F → st.σ → Prop) (w : Nat) (i : Int) (xs : List F)
    (q : Quantile st) : Prop where
  window : q.window = w
  interp : q.interpolation = i
  cap : q.queue.cap = Ring.roundUp w
  live : q.queue.disposed = false
  queue : w ≠ 0 → q.queue.items = xs
  rep : R (xs : List F) q.statistic
  len : w ≠ 0 → xs.length ≤ w

/-- Invariant of the struct. -/
structure WInv {st : Statistic F} (R : Multiset F → st.σ → Prop) (w : Nat) (i : Int) (xs : List F)
    (q : Quantile st) : Prop extends WInv0 R w i xs q where
  pos : xs ≠ [] → 0 < st.size q.statistic

variable {st : Statistic F} {R : Multiset F → st.σ → Prop}

theorem add_weak (W : Weak st R) {xs : List F} {q q' : Quantile st} {oe : Option Err} (hr : R (xs : List F) q.statistic)
    (x : F) (h : Quantile.push.add x q = .val (q', oe)) :
    oe = none ∧ ∃ s, q' = { q with statistic := s } ∧ R ((xs ++ [x] : List F)) s ∧ 0 < st.size s := by
  have : ((xs ++ [x] : List F) : Multiset F) = x ::ₘ (xs : Multiset F) := by
    rw [Multiset.cons_coe, Multiset.coe_eq_coe]; simp
  unfold Quantile.push.add at h
  split at h
  · cases h
  · cases h
  · rename_i s e
    cases h
    exact ⟨rfl, s, rfl, by rw [this]; exact W.add hr x e, W.add_pos hr x e⟩

theorem put_weak {w : Nat} {i : Int} {xs : List F} (W : Weak st R) (hw : w ≠ 0) {q q' : Quantile st} {oe : Option Err}
    (h : WInv0 R w i xs q) (hlen : xs.length < w) (x : F) (hp : Quantile.push.put x q = .val (q', oe)) :
    oe = none ∧ WInv R w i (xs ++ [x]) q' := by
  have hcap := Ring.le_roundUp w
  have hput : q.queue.put x = .val (.ok { q.queue with items := xs ++ [x] }) := by
    rw [Ring.put_ok h.live (by rw [h.queue hw, h.cap]; omega), h.queue hw]
  simp only [Quantile.push.put, hput] at hp
  obtain ⟨rfl, s, rfl, h2, h3⟩ := add_weak W (q := { q with queue := { q.queue with items := xs ++ [x] } }) h.rep x hp
  exact ⟨rfl, ⟨h.window, h.interp, h.cap, h.live, fun _ => rfl, h2, fun _ => by simp; omega⟩, fun _ => h3⟩

theorem push_weak {w : Nat} {i : Int} (W : Weak st R) {ys : List F} {q q' : Quantile st} {oe : Option Err}
    (h : WInv R w i (lastN w ys) q) (x : F) (hp : q.push x = .val (q', oe)) :
    oe = none ∧ WInv R w i (lastN w (ys ++ [x])) q' := by
  by_cases hw : w = 0
  · subst hw
    rw [lastN_zero] at h ⊢
    unfold Quantile.push at hp
    rw [if_neg (by simp [h.window])] at hp
    obtain ⟨rfl, s, rfl, h2, h3⟩ := add_weak W h.rep x hp
    exact ⟨rfl, ⟨h.window, h.interp, h.cap, h.live, fun c => absurd rfl c, h2, fun c => absurd rfl c⟩, fun _ => h3⟩
  · have hne : q.window ≠ 0 := by rw [h.window]; exact_mod_cast hw
    have hl := h.len hw
    unfold Quantile.push at hp
    rw [if_pos hne] at hp
    by_cases hf : (lastN w ys).length = w
    · rw [lastN_snoc_full hw _ _ hf]
      rcases hx : lastN w ys with _ | ⟨y, zs⟩
      · rw [hx] at hf; simp at hf; omega
      · rw [hx] at h hf
        have hget : q.queue.get = .val (.ok (y, { q.queue with items := zs })) :=
          Ring.get_ok h.live (h.queue hw)
        rw [if_pos (by rw [Ring.len, h.queue hw, h.window, hf]), hget] at hp
        simp only at hp
        split at hp
        · cases hp
        · cases hp
        · rename_i s e
          have h2 := W.remove h.rep y e
          have h2' : R (zs : List F) s := by
            have : ((y :: zs : List F) : Multiset F).erase y = (zs : Multiset F) := by simp
            rwa [this] at h2
          have hi : WInv0 R w i zs { q with queue := { q.queue with items := zs }, statistic := s } :=
            ⟨h.window, h.interp, h.cap, h.live, fun _ => rfl, h2', fun _ => by simp at hf; omega⟩
          exact put_weak W hw hi (by simp at hf; omega) x hp
    · rw [lastN_snoc_room hw _ _ hf]
      rw [if_neg (by rw [Ring.len, h.queue hw, h.window]; exact_mod_cast hf)] at hp
      exact put_weak W hw h.toWInv0 (by omega) x hp

theorem run_weak (W : Weak st R) (w : Nat) (i : Int) (ops : List (MOp F)) {q : Quantile st} {log : List Err}
    (h : (Quantile.fresh st w i).run ops = .val (q, log)) : log = [] ∧ WInv R w i (windowOf w ops) q := by
  induction ops using List.reverseRecOn generalizing q log with
  | nil =>
    cases h
    have e : windowOf w ([] : List (MOp F)) = [] := by simp [windowOf, since, lastN]
    rw [e]
    exact ⟨rfl, ⟨rfl, rfl, rfl, rfl, fun _ => rfl, W.empty, fun _ => Nat.zero_le _⟩, fun c => absurd rfl c⟩
  | append_singleton ops o ih =>
    unfold Quantile.run at h ih
    rw [Go.runOps_append] at h
    split at h
    · rename_i s e
      obtain ⟨q0, log0⟩ := s
      obtain ⟨rfl, h2⟩ := ih e
      cases o with
      | push x =>
        simp only [Go.runOps, logged, Quantile.step] at h
        rcases hpx : q0.push x with ⟨q1, oe⟩ | _ | _
        · rw [hpx] at h
          simp at h
          obtain ⟨rfl, h3⟩ := push_weak W (ys := since ops) h2 x hpx
          obtain ⟨rfl, rfl⟩ := h
          exact ⟨rfl, by rwa [windowOf_push]⟩
        · rw [hpx] at h; cases h
        · rw [hpx] at h; cases h
      | clear =>
        simp [Go.runOps, logged, Quantile.step] at h
        obtain ⟨rfl, rfl⟩ := h
        rw [windowOf_clear]
        refine ⟨rfl, ⟨h2.window, h2.interp, ?_, rfl, fun _ => rfl, ?_, fun _ => Nat.zero_le _⟩, fun c => absurd rfl c⟩
        · simp [Quantile.clear, Ring.new, h2.window]
        · simpa [Quantile.clear] using W.clear h2.rep
    · cases h
    · cases h

theorem statOf_weak [Nonempty F] (c : Cfg F) (hs : 1 ≤ c.skip.maxLevel) (draws : Nat → Nat → Bool) :
    ∃ R, Weak (statOf c draws) R := by
  by_cases h1 : c.impl = RedBlack
  · rw [statOf, if_pos h1]
    exact ⟨_, rbStat_weak⟩
  · by_cases h2 : c.impl = SkipList
    · rw [statOf, if_neg h1, if_pos h2]
      exact ⟨_, skipStat_weak (by omega) draws⟩
    · rw [statOf, if_neg h1, if_neg h2]
      exact ⟨_, avlStat_weak⟩

end

section
variable {K : Type} [Field K] [LinearOrder K] [IsStrictOrderedRing K] [FloorRing K]

theorem between_range (m : Method) (i : Nat) {a b d lo hi : K} (h0 : 0 < d) (h1 : d < 1) (ha : lo ≤ a) (ha' : a ≤ hi)
    (hb : lo ≤ b) (hb' : b ≤ hi) :
    lo ≤ between (exact K) m i a b d ∧ between (exact K) m i a b d ≤ hi := by
  rw [between_exact]
  cases m <;> simp only [interpolate]
  · constructor <;> nlinarith
  · exact ⟨ha, ha'⟩
  · exact ⟨hb, hb'⟩
  · split_ifs
    · exact ⟨ha, ha'⟩
    · exact ⟨hb, hb'⟩
  · constructor <;> linarith

/-- Everything that holds for every implementation and every history whose pushes return. -/
theorem quantile_weak {window : Int} {os : List (Opt K)} {c : Cfg K} (hn : new 0 1 window os = .ok c)
    (draws : Nat → Nat → Bool) (ops : List (MOp K)) {m : Method} (hm : c.interpolation = code m)
    {q : Quantile (statOf c draws)} {log : List Err} (hrun : (ofCfg c draws).run ops = .val (q, log)) :
    log = [] ∧ 0 ≤ (statOf c draws).size q.statistic ∧
      ((statOf c draws).size q.statistic = 0 ↔ windowOf window.toNat ops = []) ∧
      (∀ O : FOps K, O.ofInt 0 = 0 → O.ofInt 1 = 1 → ∀ x, x ≤ 0 ∨ 1 ≤ x ∨ (statOf c draws).size q.statistic = 0 →
        ∃ e, q.value O x = .val (.error e)) ∧
      (∀ (O : FOps K) x, 0 < x → x < 1 → (statOf c draws).size q.statistic ≠ 0 →
        IndexSound O ((statOf c draws).size q.statistic).toNat x → ∃ v, q.value O x = .val (.ok v)) ∧
      (∀ x v, q.value (exact K) x = .val (.ok v) → (∃ y ∈ windowOf window.toNat ops, y ≤ v) ∧
        ∃ y ∈ windowOf window.toNat ops, v ≤ y) := by
  obtain ⟨h0, hw, hs, -, -, -, -⟩ := new_ok hn
  obtain ⟨R, W⟩ := statOf_weak c hs draws
  have hfr : ofCfg c draws = Quantile.fresh (statOf c draws) (window.toNat : Int) c.interpolation := by
    rw [ofCfg, hw, Int.toNat_of_nonneg h0]
  rw [hfr] at hrun
  obtain ⟨hl, i⟩ := run_weak W window.toNat c.interpolation ops hrun
  have hsz := W.size i.rep
  have hi : q.interpolation = code m := i.interp.trans hm
  obtain ⟨n, hnn⟩ : ∃ n : Nat, (statOf c draws).size q.statistic = n := ⟨_, (Int.toNat_of_nonneg hsz).symm⟩
  have hsel : ∀ k < n, ∃ v, (statOf c draws).select q.statistic (k : Int) = .val (some v) ∧ v ∈ windowOf window.toNat ops := by
    intro k hk
    obtain ⟨v, hv, e⟩ := W.sel_in i.rep k (by omega) (by omega)
    exact ⟨v, e, by simpa using hv⟩
  have herr : ∀ O : FOps K, O.ofInt 0 = 0 → O.ofInt 1 = 1 → ∀ x, x ≤ 0 ∨ 1 ≤ x ∨ (statOf c draws).size q.statistic = 0 →
        ∃ e, q.value O x = .val (.error e) := by
    intro O hz ho x hx
    rcases hx with hx | hx | hx
    · exact ⟨_, if_pos (by simp [hz, hx])⟩
    · exact ⟨_, if_pos (by simp [ho, hx])⟩
    · by_cases hq : (x ≤ 0) ∨ (1 ≤ x)
      · exact ⟨_, if_pos (by simpa [hz, ho] using hq)⟩
      · exact ⟨_, (if_neg (by simpa [hz, ho] using hq)).trans (if_pos hx)⟩
  refine ⟨hl, hsz, ⟨fun h => ?_, fun h => ?_⟩, herr, ?_, ?_⟩
  · by_contra c
    have := i.pos c; omega
  · have hr := i.rep
    rw [h] at hr; exact W.size_zero hr
  · intro O x h1 h2 hne ho
    rw [hnn] at ho hne
    simp only [Int.toNat_natCast] at ho
    rcases value_gen hnn hsel m hi h1 h2 (by omega) ho with ⟨_, _, v, h, _⟩ | ⟨_, _, _, _, _, _, _, h⟩
    · exact ⟨v, h⟩
    · exact ⟨_, h⟩
  · intro x v hv
    by_cases hc : x ≤ 0 ∨ 1 ≤ x ∨ (statOf c draws).size q.statistic = 0
    · obtain ⟨e, he⟩ := herr (exact K) (by simp [exact]) (by simp [exact]) x hc
      rw [hv] at he; cases he
    · push Not at hc
      obtain ⟨h1, h2, h3⟩ := hc
      rw [hnn] at h3
      have hn0 : 0 < n := by omega
      have hmul : (exact K).mul x ((exact K).ofInt (n - 1)) = x * (n - 1) := by simp [exact]
      rcases value_gen hnn hsel m hi h1 h2 hn0 (exact_indexSound hn0 h1 h2) with ⟨_, _, v', h, hm'⟩ | ⟨j, a, b, g1, g2, ga, gb, h⟩
      · rw [hv] at h; cases h
        exact ⟨⟨v, hm', le_rfl⟩, v, hm', le_rfl⟩
      · rw [hv] at h
        injection h with h; injection h with h
        have hd0 : 0 < (exact K).sub ((exact K).mul x ((exact K).ofInt (n - 1))) (j : K) := by
          simp only [exact] at g1 ⊢; linarith
        have hd1 : (exact K).sub ((exact K).mul x ((exact K).ofInt (n - 1))) (j : K) < 1 := by
          simp only [exact] at g2 ⊢; linarith
        rcases le_total a b with hab | hab
        · have := between_range m j hd0 hd1 le_rfl hab hab le_rfl
          rw [← h] at this
          exact ⟨⟨a, ga, this.1⟩, b, gb, this.2⟩
        · have := between_range m j hd0 hd1 hab le_rfl le_rfl hab
          rw [← h] at this
          exact ⟨⟨b, gb, this.1⟩, a, ga, this.2⟩

/-- The trees answer the order statistics of their own content, which lies within the window. -/
theorem statOf_trees (c : Cfg K) (hc : c.impl ≠ SkipList) (draws : Nat → Nat → Bool) :
    ∃ R, Weak (statOf c draws) R ∧ ∀ S s, R S s → ∃ T ≤ S, (statOf c draws).size s = T.card ∧
      ∀ k, (statOf c draws).select s k = .val (kth T k) := by
  by_cases h1 : c.impl = RedBlack
  · rw [statOf, if_pos h1]
    refine ⟨_, rbStat_weak, fun S s h => ⟨_, h.2.2, ?_, fun k => ?_⟩⟩
    · show Rb.Node.size _ = _
      rw [h.1.size_eq]; simp
    · show Go.val (Rb.Node.select _ _) = _
      rw [Rb.Node.select_spec h.1, kth_coe h.2.1]
  · rw [statOf, if_neg h1, if_neg hc]
    exact ⟨_, avlStat_weak, fun S s h => ⟨S, le_rfl, h.size, fun k => congrArg Go.val (h.select k)⟩⟩

/-- With a tree, every reported value is the quantile of some part of the window. -/
theorem quantile_trees {window : Int} {os : List (Opt K)} {c : Cfg K} (hn : new 0 1 window os = .ok c) (hc : c.impl ≠ SkipList)
    (draws : Nat → Nat → Bool) (ops : List (MOp K)) {m : Method} (hm : c.interpolation = code m)
    {q : Quantile (statOf c draws)} {log : List Err} (hrun : (ofCfg c draws).run ops = .val (q, log)) :
    ∃ T ≤ ((windowOf window.toNat ops : List K) : Multiset K), ∀ x v, q.value (exact K) x = .val (.ok v) → IsQuantile m T x v := by
  obtain ⟨h0, hw, hs, -, -, -, -⟩ := new_ok hn
  obtain ⟨R, W, hT⟩ := statOf_trees c hc draws
  have hfr : ofCfg c draws = Quantile.fresh (statOf c draws) (window.toNat : Int) c.interpolation := by
    rw [ofCfg, hw, Int.toNat_of_nonneg h0]
  have hrun' := hrun
  rw [hfr] at hrun
  obtain ⟨hl, i⟩ := run_weak W window.toNat c.interpolation ops hrun
  obtain ⟨T, hle, hsz, hsel⟩ := hT _ _ i.rep
  refine ⟨T, hle, fun x v hv => ?_⟩
  obtain ⟨-, -, -, herr, -, -⟩ := quantile_weak hn draws ops hm hrun'
  by_cases hcx : x ≤ 0 ∨ 1 ≤ x ∨ (statOf c draws).size q.statistic = 0
  · obtain ⟨e, he⟩ := herr (exact K) (by simp [exact]) (by simp [exact]) x hcx
    rw [hv] at he; cases he
  · push Not at hcx
    obtain ⟨h1, h2, h3⟩ := hcx
    have hn0 : 0 < T.card := by omega
    have hmul : (exact K).mul x ((exact K).ofInt (T.card - 1)) = x * (T.card - 1) := by simp [exact]
    have hsel' : ∀ k < T.card, ∃ v, (statOf c draws).select q.statistic (k : Int) = .val (some v) ∧ IsKth T k v := by
      intro k hk
      obtain ⟨v, e1, e2⟩ := kth_isKth T (k := k) (by omega) (by omega)
      exact ⟨v, by rw [hsel, e1], by simpa using e2⟩
    rcases value_gen hsz hsel' m (i.interp.trans hm) h1 h2 hn0 (exact_indexSound hn0 h1 h2) with
      ⟨j, g1, v', h, hk⟩ | ⟨j, a, b, g1, g2, ga, gb, h⟩
    · rw [hv] at h; cases h
      exact Or.inl ⟨j, by rw [← hmul, g1], hk⟩
    · rw [hv] at h
      injection h with h; injection h with h
      refine Or.inr ⟨j, a, b, by rw [← hmul]; exact g1, by rw [← hmul]; exact g2, ga, gb, ?_⟩
      rw [h, between_exact, hmul]; simp [exact]

end

section nan
variable {F : Type}

theorem push_statInv {st : Statistic F} {P : st.σ → Prop} (ha : ∀ s x s', P s → st.add s x = .val s' → P s')
    (hr : ∀ s x s', P s → st.remove s x = .val s' → P s') {q q' : Quantile st} {x : F} {oe : Option Err}
    (h : P q.statistic) (e : q.push x = .val (q', oe)) : P q'.statistic := by
  have hadd : ∀ (q : Quantile st) {q' oe}, P q.statistic → Quantile.push.add x q = .val (q', oe) → P q'.statistic := by
    intro q q' oe h e
    unfold Quantile.push.add at e
    split at e
    · cases e
    · cases e
    · rename_i s e1
      cases e; exact ha _ _ _ h e1
  have hput : ∀ (q : Quantile st) {q' oe}, P q.statistic → Quantile.push.put x q = .val (q', oe) → P q'.statistic := by
    intro q q' oe h e
    unfold Quantile.push.put at e
    split at e
    · cases e
    · cases e
    · cases e; exact h
    · rename_i s e1
      refine hadd _ ?_ e; exact h
  unfold Quantile.push at e
  by_cases h1 : q.window ≠ 0
  · rw [if_pos h1] at e
    by_cases h2 : (q.queue.len : Int) = q.window
    · rw [if_pos h2] at e
      split at e
      · cases e
      · cases e
      · cases e; exact h
      · split at e
        · cases e
        · cases e
        · rename_i s e1
          refine hput _ ?_ e; exact hr _ _ _ h e1
    · rw [if_neg h2] at e
      exact hput _ h e
  · rw [if_neg h1] at e
    exact hadd _ h e

/-- A property of the container preserved by its operations holds after every history. -/
theorem run_statInv {st : Statistic F} {P : st.σ → Prop} (h0 : P st.empty) (ha : ∀ s x s', P s → st.add s x = .val s' → P s')
    (hr : ∀ s x s', P s → st.remove s x = .val s' → P s') (hc : ∀ s, P s → P (st.clear s)) {w i : Int} (ops : List (MOp F))
    {q : Quantile st} {log : List Err} (h : (Quantile.fresh st w i).run ops = .val (q, log)) : P q.statistic := by
  induction ops using List.reverseRecOn generalizing q log with
  | nil => cases h; exact h0
  | append_singleton ops o ih =>
    unfold Quantile.run at h ih
    rw [Go.runOps_append] at h
    split at h
    · rename_i s e
      obtain ⟨q0, log0⟩ := s
      have h2 := ih e
      cases o with
      | push x =>
        simp only [Go.runOps, logged, Quantile.step] at h
        rcases hpx : q0.push x with ⟨q1, oe⟩ | _ | _
        · rw [hpx] at h
          simp at h
          obtain ⟨rfl, -⟩ := h
          exact push_statInv ha hr h2 hpx
        · rw [hpx] at h; cases h
        · rw [hpx] at h; cases h
      | clear =>
        simp [Go.runOps, logged, Quantile.step] at h
        obtain ⟨rfl, -⟩ := h
        exact hc _ h2
    · cases h
    · cases h

end nan

end Verif.Quant
