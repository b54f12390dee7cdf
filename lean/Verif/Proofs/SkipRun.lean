import Verif.Proofs.SkipRemove
import Verif.Proofs.Quantile

/-! # Skip list: whole histories -/

set_option linter.unusedSectionVars false

namespace Verif.Skip
open Verif Verif.Spec

variable {F : Type} [LinearOrder F]

/-- The list holds the multiset `S`. -/
def Rep (M : Nat) (S : Multiset F) (s : SkipList F) : Prop :=
  s.maxLevel = M ∧ ∃ A V, Inv s A V ∧ ((A.map V : List F) : Multiset F) = S

/-- The list holds the multiset `S` of distinct values and all widths are exact. -/
def RepE (M : Nat) (S : Multiset F) (s : SkipList F) : Prop :=
  s.maxLevel = M ∧ ∃ A V, Inv s A V ∧ ((A.map V : List F) : Multiset F) = S ∧ Exact s A ∧ S.Nodup

theorem RepE.rep {M : Nat} {S : Multiset F} {s : SkipList F} (h : RepE M S s) : Rep M S s := by
  obtain ⟨hM, A, V, h1, h2, -⟩ := h; exact ⟨hM, A, V, h1, h2⟩

theorem RepE.new [Nonempty F] {M : Nat} (hM : 0 < M) (draws : Nat → Nat → Bool) :
    RepE M (0 : Multiset F) (new M draws) := by
  obtain ⟨z⟩ := ‹Nonempty F›
  exact ⟨rfl, [], fun _ => z, (Inv.new M hM draws _).1, by simp, (Inv.new M hM draws (fun _ => z)).2, by simp⟩

theorem Rep.step {M : Nat} {S : Multiset F} {s : SkipList F} (h : Rep M S s) (o : OSOp F) :
    ∃ s', s.step o = .val s' ∧ Rep M (bagStep S o) s' := by
  obtain ⟨hM, A, V, h1, rfl⟩ := h
  cases o with
  | add x =>
    obtain ⟨s', A', V', e, i, m, -, g⟩ := h1.add x
    exact ⟨s', e, g.trans hM, A', V', i, m⟩
  | remove x =>
    obtain ⟨s', A', e, i, m, -, g, -⟩ := h1.remove x
    exact ⟨s', e, g.trans hM, A', V, i, m⟩
  | clear => exact ⟨s.clear, rfl, hM, [], V, h1.clear.1, by simp [bagStep]⟩

theorem RepE.step {M : Nat} {S : Multiset F} {s : SkipList F} (h : RepE M S s) (o : OSOp F) (ho : ∀ x, o = .add x → x ∉ S) :
    ∃ s', s.step o = .val s' ∧ RepE M (bagStep S o) s' := by
  obtain ⟨hM, A, V, h1, rfl, hE, hN⟩ := h
  cases o with
  | add x =>
    have hx := ho x rfl
    obtain ⟨s', A', V', e, i, m, g, gM⟩ := h1.add x
    exact ⟨s', e, gM.trans hM, A', V', i, m, g hE (by simpa using hx) (by simpa using hN),
      Multiset.nodup_cons.2 ⟨hx, hN⟩⟩
  | remove x =>
    obtain ⟨s', A', e, i, m, g, gM, -⟩ := h1.remove x
    exact ⟨s', e, gM.trans hM, A', V, i, m, g hE, hN.erase x⟩
  | clear => exact ⟨s.clear, rfl, hM, [], V, h1.clear.1, by simp [bagStep], h1.clear.2, by simp [bagStep]⟩

theorem run_rep [Nonempty F] {M : Nat} (hM : 0 < M) (draws : Nat → Nat → Bool) (ops : List (OSOp F)) :
    ∃ s, SkipList.run M draws ops = .val s ∧ Rep M (bag ops) s := by
  induction ops using List.reverseRecOn with
  | nil => exact ⟨_, rfl, (RepE.new hM draws).rep⟩
  | append_singleton ops o ih =>
    obtain ⟨s, e, h⟩ := ih
    obtain ⟨s', e', h'⟩ := h.step o
    refine ⟨s', ?_, by simpa [bag, List.foldl_append] using h'⟩
    unfold SkipList.run at e ⊢
    rw [Go.runOps_append, e]
    simp [Go.runOps, e']

/-- Every value is added only while it is not stored. -/
def AddsFresh (ops : List (OSOp F)) : Prop := ∀ pre x post, ops = pre ++ .add x :: post → x ∉ bag pre

theorem run_repE [Nonempty F] {M : Nat} (hM : 0 < M) (draws : Nat → Nat → Bool) (ops : List (OSOp F))
    (hf : AddsFresh ops) : ∃ s, SkipList.run M draws ops = .val s ∧ RepE M (bag ops) s := by
  induction ops using List.reverseRecOn with
  | nil => exact ⟨_, rfl, RepE.new hM draws⟩
  | append_singleton ops o ih =>
    obtain ⟨s, e, h⟩ := ih (fun pre x post c => hf pre x (post ++ [o]) (by simp [c]))
    obtain ⟨s', e', h'⟩ := h.step o (fun x hx => hf ops x [] (by simp [hx]))
    refine ⟨s', ?_, by simpa [bag, List.foldl_append] using h'⟩
    unfold SkipList.run at e ⊢
    rw [Go.runOps_append, e]
    simp [Go.runOps, e']

/-! ### The levels as a reader of the pointers sees them -/

/-- The nodes reached from `a` by following the level-`i` pointers. -/
def chain (s : SkipList F) (i : Nat) : Nat → Nat → List Nat
  | 0, _ => []
  | f + 1, a =>
    match nx s a i with
    | none => []
    | some b => b :: chain s i f b

/-- The values on level `i`. -/
def level (s : SkipList F) (i : Nat) : List F := (chain s i s.alloc 0).filterMap (vl s)

theorem chain_spec {s : SkipList F} {A : List Nat} {V : Nat → F} (h : Links s A V) {i : Nat} :
    ∀ (f : Nat) (X : List Nat) (a : Nat) (Y : List Nat), 0 :: A = X ++ a :: Y → i < lv s a → Y.length < f →
      chain s i f a = Y.filter (fun b => decide (i < lv s b)) := by
  intro f
  induction f with
  | zero => intro X a Y _ _ hf; omega
  | succ f ih =>
    intro X a Y e ha hf
    have hn := h.link X a Y e i ha
    rcases hy : Y.find? (fun b => decide (i < lv s b)) with _ | b
    · rw [chain, hn, hy]
      symm
      rw [List.filter_eq_nil_iff]
      exact List.find?_eq_none.1 hy
    · obtain ⟨Y1, Y2, e1, hb, hY1⟩ := find_some hy
      simp only [chain, hn, hy]
      rw [ih (X ++ a :: Y1) b Y2 (by rw [e, e1]; simp) hb (by rw [e1] at hf; simp at hf; omega), e1, List.filter_append,
        List.filter_cons, if_pos (by simpa using hb), List.filter_eq_nil_iff (l := Y1) |>.2 (by simpa using hY1)]
      rfl

theorem level_spec {s : SkipList F} {A : List Nat} {V : Nat → F} (h : Links s A V) {i : Nat} (hi : i < s.maxLevel) :
    level s i = (A.filter (fun b => decide (i < lv s b))).map V := by
  have hl := h.length_lt
  rw [level, chain_spec h s.alloc [] 0 A rfl (by rw [h.hl]; exact hi) hl]
  have : ∀ B : List Nat, (∀ b ∈ B, b ∈ A) → B.filterMap (vl s) = B.map V := by
    intro B
    induction B with
    | nil => intro _; rfl
    | cons b B ih =>
      intro hB
      rw [List.filterMap_cons, h.vals b (hB b (by simp)), List.map_cons, ih (fun c hc => hB c (by simp [hc]))]
  exact this _ (fun b hb => (List.mem_filter.1 hb).1)

theorem level_zero {s : SkipList F} {A : List Nat} {V : Nat → F} (h : Links s A V) : level s 0 = A.map V := by
  rw [level_spec h h.pos, List.filter_eq_self.2]
  intro a ha; simpa using (h.lvl a ha).1

theorem level_sublist {s : SkipList F} {A : List Nat} {V : Nat → F} (h : Links s A V) {i : Nat} (hi : i + 1 < s.maxLevel) :
    (level s (i + 1)).Sublist (level s i) := by
  rw [level_spec h hi, level_spec h (by omega)]
  refine List.Sublist.map V ?_
  have : A.filter (fun b => decide (i + 1 < lv s b)) = (A.filter (fun b => decide (i < lv s b))).filter (fun b => decide (i + 1 < lv s b)) := by
    rw [List.filter_filter]
    apply List.filter_congr
    intro a _
    by_cases c : i + 1 < lv s a
    · simp [c, show i < lv s a by omega]
    · simp [c]
  rw [this]
  exact List.filter_sublist

/-! ### The skip list as the order statistic of `Quantile` -/

theorem skip_select {M : Nat} {S : Multiset F} {s : SkipList F} (h : RepE M S s) (k : Int) : s.select k = .val (kth S k) := by
  obtain ⟨hM, A, V, h1, rfl, hE, -⟩ := h
  obtain ⟨r, e, -, -, g⟩ := h1.select k
  rw [e, g hE]

theorem skip_size {M : Nat} {S : Multiset F} {s : SkipList F} (h : Rep M S s) : s.size = S.card := by
  obtain ⟨hM, A, V, h1, rfl⟩ := h
  simp [SkipList.size, h1.len]

theorem skipStat_lawful [Nonempty F] {M : Nat} (hM : 0 < M) (draws : Nat → Nat → Bool) :
    Quant.Lawful (Quant.skipStat F M draws) (fun S x => x ∉ S) (fun _ _ => True) (RepE M) where
  empty := RepE.new hM draws
  size h := skip_size h.rep
  select h k := skip_select h k
  add h x hx := h.step (.add x) (by intro y e; cases e; exact hx)
  remove h x _ := h.step (.remove x) (by intro y e; cases e)
  clear h := by
    obtain ⟨s', e, h'⟩ := h.step .clear (by intro y e; cases e)
    cases e; exact h'

end Verif.Skip
