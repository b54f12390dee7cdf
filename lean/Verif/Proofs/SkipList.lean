import Verif.Model.SkipList
import Verif.Proofs.ListLemmas
import Mathlib.Data.List.Range
import Mathlib.Algebra.BigOperators.Group.List.Basic
import Mathlib.Tactic.Linarith
import Mathlib.Tactic.Ring

/-! # Correctness of the skip list -/

set_option linter.unusedSectionVars false
set_option linter.unusedSimpArgs false

namespace Verif.Skip
open Verif Verif.Spec

variable {F : Type} [LinearOrder F]

abbrev lv (s : SkipList F) (a : Nat) : Nat := (s.store a).level
abbrev nx (s : SkipList F) (a i : Nat) : Option Nat := (s.store a).next i
abbrev wd (s : SkipList F) (a i : Nat) : Int := (s.store a).width i
abbrev vl (s : SkipList F) (a : Nat) : Option F := (s.store a).val

/-- Everything but the pointers and widths is unchanged. -/
structure Same (s s' : SkipList F) : Prop where
  lv : ∀ a, lv s' a = lv s a
  vl : ∀ a, vl s' a = vl s a
  max : s'.maxLevel = s.maxLevel
  alloc : s'.alloc = s.alloc
  length : s'.length = s.length
  draws : s'.draws = s.draws
  drawn : s'.drawn = s.drawn

theorem Same.refl (s : SkipList F) : Same s s := ⟨fun _ => rfl, fun _ => rfl, rfl, rfl, rfl, rfl, rfl⟩

theorem Same.trans {s t u : SkipList F} (h : Same s t) (k : Same t u) : Same s u :=
  ⟨fun a => (k.lv a).trans (h.lv a), fun a => (k.vl a).trans (h.vl a), k.max.trans h.max, k.alloc.trans h.alloc,
    k.length.trans h.length, k.draws.trans h.draws, k.drawn.trans h.drawn⟩

theorem setNext_spec (s : SkipList F) {a i : Nat} (h : i < lv s a) (p : Option Nat) :
    ∃ s', s.setNext a i p = .val s' ∧ Same s s' ∧ (∀ b j, nx s' b j = if b = a ∧ j = i then p else nx s b j) ∧
      ∀ b j, wd s' b j = wd s b j := by
  refine ⟨_, if_pos h, ⟨?_, ?_, rfl, rfl, rfl, rfl, rfl⟩, ?_, ?_⟩
  · intro b; simp only [lv, SkipList.upd, Function.update_apply]; split_ifs with c <;> simp [c]
  · intro b; simp only [vl, SkipList.upd, Function.update_apply]; split_ifs with c <;> simp [c]
  · intro b j
    simp only [nx, SkipList.upd, Function.update_apply]
    by_cases c : b = a
    · subst c; simp [Function.update_apply]
    · simp [c]
  · intro b j; simp only [wd, SkipList.upd, Function.update_apply]; split_ifs with c <;> simp [c]

theorem addWidth_spec (s : SkipList F) {a i : Nat} (h : i < lv s a) (d : Int) :
    ∃ s', s.addWidth a i d = .val s' ∧ Same s s' ∧ (∀ b j, nx s' b j = nx s b j) ∧
      ∀ b j, wd s' b j = if b = a ∧ j = i then wd s b j + d else wd s b j := by
  refine ⟨_, if_pos h, ⟨?_, ?_, rfl, rfl, rfl, rfl, rfl⟩, ?_, ?_⟩
  · intro b; simp only [lv, SkipList.upd, Function.update_apply]; split_ifs with c <;> simp [c]
  · intro b; simp only [vl, SkipList.upd, Function.update_apply]; split_ifs with c <;> simp [c]
  · intro b j; simp only [nx, SkipList.upd, Function.update_apply]; split_ifs with c <;> simp [c]
  · intro b j
    simp only [wd, SkipList.upd, Function.update_apply]
    by_cases c : b = a
    · subst c
      by_cases c2 : j = i
      · subst c2; simp
      · simp [Function.update_apply, c2]
    · simp [c]

/-- The pointer structure: `A` is the bottom level (without the head), `V` the values. -/
structure Links (s : SkipList F) (A : List Nat) (V : Nat → F) : Prop where
  pos : 0 < s.maxLevel
  hl : lv s 0 = s.maxLevel
  nodup : (0 :: A).Nodup
  fresh : ∀ a ∈ 0 :: A, a < s.alloc
  lvl : ∀ a ∈ A, 0 < lv s a ∧ lv s a ≤ s.maxLevel
  vals : ∀ a ∈ A, vl s a = some (V a)
  link : ∀ X a Y, 0 :: A = X ++ a :: Y → ∀ i < lv s a, nx s a i = Y.find? (fun b => decide (i < lv s b))
  sorted : (A.map V).Pairwise (· ≤ ·)
  head : vl s 0 = none

theorem Links.length_lt {s : SkipList F} {A : List Nat} {V : Nat → F} (h : Links s A V) : A.length < s.alloc := by
  have hs : (0 :: A) ⊆ List.range s.alloc := fun a ha => List.mem_range.2 (h.fresh a ha)
  have := (h.nodup.subperm hs).length_le
  simp at this; omega

/-- `p` is the last node of level `i` in `0 :: P`. -/
def IsPrev (s : SkipList F) (P : List Nat) (i p : Nat) : Prop :=
  ∃ X Y, 0 :: P = X ++ p :: Y ∧ i < lv s p ∧ ∀ b ∈ Y, lv s b ≤ i

theorem find_none {s : SkipList F} {Y : List Nat} {i : Nat} (h : ∀ b ∈ Y, lv s b ≤ i) :
    Y.find? (fun b => decide (i < lv s b)) = none := by
  rw [List.find?_eq_none]; intro b hb; have := h b hb; simpa using this

theorem find_some {s : SkipList F} {Y : List Nat} {i b : Nat}
    (h : Y.find? (fun b => decide (i < lv s b)) = some b) :
    ∃ Y1 Y2, Y = Y1 ++ b :: Y2 ∧ i < lv s b ∧ ∀ c ∈ Y1, lv s c ≤ i := by
  obtain ⟨h1, Y1, Y2, h2, h3⟩ := List.find?_eq_some_iff_append.1 h
  exact ⟨Y1, Y2, h2, by simpa using h1, fun c hc => by simpa using h3 c hc⟩

theorem find_mid {s : SkipList F} {Y1 Y2 : List Nat} {i b : Nat} (h1 : ∀ c ∈ Y1, lv s c ≤ i) (h2 : i < lv s b) :
    (Y1 ++ b :: Y2).find? (fun b => decide (i < lv s b)) = some b := by
  rw [List.find?_append, find_none h1]; simp [h2]

section query
variable {s : SkipList F} {A : List Nat} {V : Nat → F}

/-- A split of the live nodes at `x`. -/
structure Split (V : Nat → F) (A P Q : List Nat) (x : F) : Prop where
  eq : A = P ++ Q
  lt : ∀ a ∈ P, V a < x
  ge : ∀ a ∈ Q, x ≤ V a

theorem Links.split_at (h : Links s A V) (x : F) :
    Split V A (A.takeWhile fun a => decide (V a < x)) (A.dropWhile fun a => decide (V a < x)) x := by
  refine ⟨List.takeWhile_append_dropWhile.symm, ?_, ?_⟩
  · intro a ha; have := List.all_takeWhile (l := A) (p := fun a => decide (V a < x)); rw [List.all_eq_true] at this; simpa using this a ha
  have hs := h.sorted
  clear h
  induction A with
  | nil => simp
  | cons a A ih =>
    rw [List.map_cons, List.pairwise_cons] at hs
    intro b hb
    rw [List.dropWhile_cons] at hb
    split_ifs at hb with c
    · exact ih hs.2 b hb
    · have c : x ≤ V a := by simpa using c
      rcases List.mem_cons.1 hb with rfl | hb
      · exact c
      · exact le_trans c (hs.1 _ (List.mem_map_of_mem hb))

theorem Links.split (h : Links s A V) (x : F) : ∃ P Q, Split V A P Q x := ⟨_, _, h.split_at x⟩

theorem Links.mem_split (h : Links s A V) {P Q : List Nat} {x : F} (hs : Split V A P Q x) {a : Nat} :
    (a ∈ P → s.valLt a x = true) ∧ (a ∈ Q → s.valLt a x = false) := by
  constructor
  · intro ha
    have := h.vals a (by rw [hs.eq]; simp [ha])
    simp only [SkipList.valLt]; simp only [vl] at this; rw [this]; simpa using hs.lt a ha
  · intro ha
    have := h.vals a (by rw [hs.eq]; simp [ha])
    simp only [SkipList.valLt]; simp only [vl] at this; rw [this]; simpa using hs.ge a ha

theorem walk_spec (h : Links s A V) {P Q : List Nat} {x : F} (hs : Split V A P Q x) {i : Nat} :
    ∀ (f : Nat) (X : List Nat) (a : Nat) (Y : List Nat), 0 :: P = X ++ a :: Y → i < lv s a → Y.length < f →
      ∃ X' p Y', s.walk x i f a = .val p ∧ 0 :: P = X' ++ p :: Y' ∧ i < lv s p ∧ (∀ b ∈ Y', lv s b ≤ i) := by
  intro f
  induction f with
  | zero => intro X a Y _ _ hf; omega
  | succ f ih =>
    intro X a Y e hi hf
    have hn := h.link X a (Y ++ Q) (by rw [hs.eq, ← List.cons_append, e]; simp) i hi
    have hnx : s.nextAt a i = .val (nx s a i) := by rw [SkipList.nextAt, if_pos hi]
    rw [hn, List.find?_append] at hnx
    rcases hy : Y.find? (fun b => decide (i < lv s b)) with _ | b
    · have hY : ∀ b ∈ Y, lv s b ≤ i := by
        intro b hb; have := List.find?_eq_none.1 hy b hb; simpa using this
      refine ⟨X, a, Y, ?_, e, hi, hY⟩
      rw [hy, Option.none_or] at hnx
      rcases hq : Q.find? (fun b => decide (i < lv s b)) with _ | c
      · rw [hq] at hnx; simp [SkipList.walk, hnx]
      · rw [hq] at hnx
        have hc : c ∈ Q := List.mem_of_find?_eq_some hq
        simp [SkipList.walk, hnx, (h.mem_split hs).2 hc]
    · obtain ⟨Y1, Y2, e1, hb, -⟩ := find_some hy
      rw [hy, Option.some_or] at hnx
      have hbP : b ∈ P := by
        have hb0 : b ∈ Y := by rw [e1]; simp
        cases X with
        | nil => simp at e; rw [e.2]; exact hb0
        | cons z X => simp at e; rw [e.2]; simp [hb0]
      obtain ⟨X', p, Y', r1, r2⟩ := ih (X ++ a :: Y1) b Y2 (by rw [e, e1]; simp) hb (by rw [e1] at hf; simp at hf; omega)
      refine ⟨X', p, Y', ?_, r2⟩
      simp [SkipList.walk, hnx, (h.mem_split hs).1 hbP, r1]

theorem prevsDown_spec (h : Links s A V) {P Q : List Nat} {x : F} (hs : Split V A P Q x) :
    ∀ (i : Nat) (X : List Nat) (a : Nat) (Y : List Nat), 0 :: P = X ++ a :: Y → i ≤ lv s a →
      ∃ p : Nat → Nat, s.prevsDown x i a = .val ((List.range i).map p) ∧ ∀ j < i, IsPrev s P j (p j) := by
  have hlen : P.length + 1 ≤ s.alloc := by
    have := h.length_lt; rw [hs.eq] at this; simp at this; omega
  intro i
  induction i with
  | zero => intro X a Y _ _; exact ⟨fun _ => 0, rfl, fun j hj => by omega⟩
  | succ i ih =>
    intro X a Y e hi
    have hY : Y.length < s.alloc + 1 := by
      have := congrArg List.length e; simp at this; omega
    obtain ⟨X', q, Y', w, e', hq, hY'⟩ := walk_spec (i := i) h hs (s.alloc + 1) X a Y e (by omega) hY
    obtain ⟨p, r, hp⟩ := ih X' q Y' e' hq.le
    refine ⟨fun j => if j = i then q else p j, ?_, ?_⟩
    · simp only [SkipList.prevsDown, w, r, Go.val_bind, Go.pure_eq, List.range_succ, List.map_append, List.map_cons,
        List.map_nil, if_true]
      congr 2
      apply List.map_congr_left
      intro j hj
      have := List.mem_range.1 hj
      rw [if_neg (by omega)]
    · intro j hj
      by_cases c : j = i
      · subst c; simp only [if_true]; exact ⟨X', Y', e', hq, hY'⟩
      · simp only [c, if_false]; exact hp j (by omega)

theorem getPrevs_spec (h : Links s A V) {P Q : List Nat} {x : F} (hs : Split V A P Q x) :
    ∃ p : Nat → Nat, s.getPrevs x = .val ((List.range s.maxLevel).map p) ∧ ∀ j < s.maxLevel, IsPrev s P j (p j) :=
  prevsDown_spec h hs s.maxLevel [] 0 P rfl (by rw [h.hl])

theorem idx_map (p : Nat → Nat) {n i : Nat} (h : i < n) : SkipList.idx ((List.range n).map p) i = .val (p i) := by
  simp [SkipList.idx, h]

end query

/-! ### The loops of `Add` and `Remove` -/

theorem levelLoop_bounds (M : Nat) (t : Nat → Bool) : ∀ f l, l ≤ M → l ≤ SkipList.levelLoop M t f l ∧ SkipList.levelLoop M t f l ≤ M := by
  intro f
  induction f with
  | zero => intro l h; exact ⟨le_rfl, h⟩
  | succ f ih =>
    intro l h
    unfold SkipList.levelLoop
    split_ifs with c
    · have := ih (l + 1) (by omega); omega
    · exact ⟨le_rfl, h⟩

theorem nextAt_ok {s : SkipList F} {a i : Nat} (h : i < lv s a) : s.nextAt a i = .val (nx s a i) := if_pos h
theorem widthAt_ok {s : SkipList F} {a i : Nat} (h : i < lv s a) : s.widthAt a i = .val (wd s a i) := if_pos h

theorem linkLoop_spec {s : SkipList F} {n M level : Nat} {p : Nat → Nat} (hM : level ≤ M) (hn : lv s n = level)
    (hp : ∀ i < level, i < lv s (p i) ∧ p i ≠ n) :
    ∀ k ≤ level, ∃ s', Go.runOps (SkipList.linkAt n ((List.range M).map p)) s (List.range k) = .val s' ∧ Same s s' ∧
      (∀ a i, wd s' a i = wd s a i) ∧
      ∀ a i, nx s' a i = if i < k then (if a = n then nx s (p i) i else if a = p i then some n else nx s a i) else nx s a i := by
  intro k
  induction k with
  | zero => intro _; exact ⟨s, rfl, Same.refl s, fun _ _ => rfl, fun _ _ => by simp⟩
  | succ k ih =>
    intro hk
    obtain ⟨s1, r1, h1, w1, n1⟩ := ih (by omega)
    obtain ⟨hpk, hpn⟩ := hp k (by omega)
    have e1 : s1.nextAt (p k) k = .val (nx s (p k) k) := by
      rw [nextAt_ok (by rw [h1.lv]; exact hpk), n1]; simp
    obtain ⟨s2, r2, h2, n2, w2⟩ := setNext_spec s1 (a := n) (i := k) (by rw [h1.lv, hn]; omega) (nx s (p k) k)
    obtain ⟨s3, r3, h3, n3, w3⟩ := setNext_spec s2 (a := p k) (i := k) (by rw [h2.lv, h1.lv]; exact hpk) (some n)
    refine ⟨s3, ?_, (h1.trans h2).trans h3, fun a i => by rw [w3, w2, w1], ?_⟩
    · rw [List.range_succ, Go.runOps_append, r1]
      simp [Go.runOps, SkipList.linkAt, idx_map p (show k < M by omega), e1, r2, r3]
    · intro a i
      rw [n3, n2, n1]
      by_cases c : i = k
      · subst c
        by_cases ca : a = n
        · subst ca; simp [Ne.symm hpn]
        · simp [ca]
      · by_cases c2 : i < k
        · simp [c, c2, show i < k + 1 by omega]
        · simp [c, c2, show ¬ i < k + 1 by omega]

theorem from1_succ {k : Nat} (h : 1 ≤ k) : SkipList.from1 (k + 1) = SkipList.from1 k ++ [k] := by
  obtain ⟨j, rfl⟩ : ∃ j, k = j + 1 := ⟨k - 1, by omega⟩
  simp [SkipList.from1, List.range_succ]

theorem bumpLoop_spec {s : SkipList F} {M : Nat} {p : Nat → Nat} (hp : ∀ i < M, i < lv s (p i)) :
    ∀ k ≤ M, ∃ s', Go.runOps (SkipList.bumpAt ((List.range M).map p)) s (SkipList.from1 k) = .val s' ∧ Same s s' ∧
      (∀ a i, nx s' a i = nx s a i) ∧
      ∀ a i, wd s' a i = wd s a i + if 1 ≤ i ∧ i < k ∧ a = p i then 1 else 0 := by
  intro k
  induction k with
  | zero => intro _; exact ⟨s, rfl, Same.refl s, fun _ _ => rfl, fun _ _ => by simp⟩
  | succ k ih =>
    intro hk
    by_cases h0 : k = 0
    · subst h0
      exact ⟨s, rfl, Same.refl s, fun _ _ => rfl, fun a i => by rw [if_neg (by omega)]; simp⟩
    · obtain ⟨s1, r1, h1, n1, w1⟩ := ih (by omega)
      obtain ⟨s2, r2, h2, n2, w2⟩ := addWidth_spec s1 (a := p k) (i := k) (by rw [h1.lv]; exact hp k (by omega)) 1
      refine ⟨s2, ?_, h1.trans h2, fun a i => by rw [n2, n1], ?_⟩
      · rw [from1_succ (by omega), Go.runOps_append, r1]
        simp [Go.runOps, SkipList.bumpAt, idx_map p (show k < M by omega), r2]
      · intro a i
        rw [w2, w1]
        by_cases c : i = k
        · subst c
          by_cases ca : a = p i
          · simp [ca]; omega
          · simp [ca]
        · by_cases c2 : i < k
          · simp [c, c2, show i < k + 1 by omega]
          · simp [c, c2, show ¬ i < k + 1 by omega]

/-- Sum of the level-`j` widths over a stretch of the bottom list. -/
def Cum (s : SkipList F) (j : Nat) (X : List Nat) : Int := (X.map (fun b => if j < lv s b then wd s b j else 0)).sum

theorem Cum_nil (s : SkipList F) (j : Nat) : Cum s j [] = 0 := rfl
theorem Cum_append (s : SkipList F) (j : Nat) (X Y : List Nat) : Cum s j (X ++ Y) = Cum s j X + Cum s j Y := by
  simp [Cum]
theorem Cum_cons (s : SkipList F) (j : Nat) (a : Nat) (X : List Nat) :
    Cum s j (a :: X) = (if j < lv s a then wd s a j else 0) + Cum s j X := by simp [Cum]
theorem Cum_low {s : SkipList F} {j : Nat} {X : List Nat} (h : ∀ b ∈ X, lv s b ≤ j) : Cum s j X = 0 := by
  induction X with
  | nil => rfl
  | cons a X ih =>
    rw [Cum_cons, ih (fun b hb => h b (by simp [hb])), if_neg (by have := h a (by simp); omega)]; rfl
theorem Cum_congr {s s' : SkipList F} {j : Nat} {X : List Nat} (h : ∀ b ∈ X, lv s b = lv s' b ∧ wd s b j = wd s' b j) :
    Cum s j X = Cum s' j X := by
  induction X with
  | nil => rfl
  | cons a X ih =>
    rw [Cum_cons, Cum_cons, ih (fun b hb => h b (by simp [hb])), (h a (by simp)).1, (h a (by simp)).2]

/-- Where the width loop (skiplist.go:132-134) stops, started at the first element of `L`. -/
def StopAt (s : SkipList F) (V : Nat → F) (L : List Nat) (j : Nat) (target : Option Nat) (c : Int) : Prop :=
  ∃ B C, L = B ++ C ∧ c = Cum s j B ∧
    match target with
    | none => C = []
    | some t => (∃ e C', C = e :: C' ∧ j < lv s e ∧ V e = V t ∧ t ∈ C) ∧ ∀ b ∈ B, j < lv s b → V b ≠ V t

theorem equals_some {s : SkipList F} {A : List Nat} {V : Nat → F} (h : ∀ a ∈ A, vl s a = some (V a)) {a b : Nat}
    (ha : a ∈ A) (hb : b ∈ A) : s.equals (some a) (some b) = decide (V a = V b) := by
  have h1 := h a ha
  have h2 := h b hb
  simp only [vl] at h1 h2
  simp [SkipList.equals, h1, h2]

theorem sumWidth_spec {s : SkipList F} {A : List Nat} {V : Nat → F} (h : Links s A V) {j : Nat} (target : Option Nat) :
    ∀ (f : Nat) (X : List Nat) (a : Nat) (Y : List Nat) (acc : Int), A = X ++ a :: Y → j < lv s a → Y.length + 1 < f →
      (∀ t, target = some t → t ∈ a :: Y ∧ j < lv s t) →
      ∃ c, s.sumWidth target j f (some a) acc = .val (acc + c) ∧ StopAt s V (a :: Y) j target c := by
  intro f
  induction f with
  | zero => intro X a Y acc _ _ hf; omega
  | succ f ih =>
    intro X a Y acc e hj hf ht
    have hn := h.link (0 :: X) a Y (by rw [e]; rfl) j hj
    have haA : a ∈ A := by rw [e]; simp
    rcases target with _ | t
    · -- run to the end
      have he : s.equals (some a) none = false := rfl
      rcases hy : Y.find? (fun b => decide (j < lv s b)) with _ | b
      · have hY : ∀ b ∈ Y, lv s b ≤ j := by
          intro b hb; have := List.find?_eq_none.1 hy b hb; simpa using this
        obtain ⟨f', rfl⟩ : ∃ f', f = f' + 1 := ⟨f - 1, by omega⟩
        refine ⟨wd s a j, ?_, a :: Y, [], by simp, ?_, rfl⟩
        · simp only [SkipList.sumWidth, he, nextAt_ok hj, widthAt_ok hj, hn, hy, Go.val_bind]; simp [SkipList.equals]
        · rw [Cum_cons, if_pos hj, Cum_low hY]; simp
      · obtain ⟨Y1, Y2, e1, hb, hY1⟩ := find_some hy
        obtain ⟨c, r, B, C, e2, e3, e4⟩ := ih (X ++ a :: Y1) b Y2 (acc + wd s a j) (by rw [e, e1]; simp) hb
          (by rw [e1] at hf; simp at hf; omega) (by simp)
        refine ⟨wd s a j + c, ?_, a :: Y1 ++ B, C, by rw [e1]; simp [e2], ?_, e4⟩
        · simp only [SkipList.sumWidth, he, nextAt_ok hj, widthAt_ok hj, hn, hy, Go.val_bind]; simp [r]; ring
        · rw [Cum_append, Cum_cons, if_pos hj, Cum_low hY1, e3]; ring
    · obtain ⟨htm, htl⟩ := ht t rfl
      have htA : t ∈ A := by
        rw [e]; simp at htm ⊢; tauto
      have he := equals_some h.vals haA htA
      by_cases hv : V a = V t
      · refine ⟨0, ?_, [], a :: Y, rfl, rfl, ⟨a, Y, rfl, hj, hv, htm⟩, by simp⟩
        simp [SkipList.sumWidth, he, hv]
      · have hta : t ∈ Y := by
          rcases List.mem_cons.1 htm with rfl | c
          · exact absurd rfl hv
          · exact c
        rcases hy : Y.find? (fun b => decide (j < lv s b)) with _ | b
        · have := List.find?_eq_none.1 hy t hta; simp at this; omega
        · obtain ⟨Y1, Y2, e1, hb, hY1⟩ := find_some hy
          have ht2 : t ∈ b :: Y2 := by
            rw [e1, List.mem_append] at hta
            rcases hta with c | c
            · have := hY1 t c; omega
            · exact c
          obtain ⟨c, r, B, C, e2, e3, e4⟩ := ih (X ++ a :: Y1) b Y2 (acc + wd s a j) (by rw [e, e1]; simp) hb
            (by rw [e1] at hf; simp at hf; omega) (by rintro t' ⟨⟩; exact ⟨ht2, htl⟩)
          refine ⟨wd s a j + c, ?_, a :: Y1 ++ B, C, by rw [e1]; simp [e2], ?_, e4.1, ?_⟩
          · simp only [SkipList.sumWidth, he, nextAt_ok hj, widthAt_ok hj, hn, hy, Go.val_bind]; simp [hv, r]; ring
          · rw [Cum_append, Cum_cons, if_pos hj, Cum_low hY1, e3]; ring
          · intro b' hb' hj'
            rw [List.cons_append, List.mem_cons, List.mem_append] at hb'
            rcases hb' with rfl | hb' | hb'
            · exact hv
            · have := hY1 b' hb'; omega
            · exact e4.2 b' hb' hj'

theorem Links.congr {s s' : SkipList F} {A : List Nat} {V : Nat → F} (h : Links s A V) (hs : Same s s')
    (hn : ∀ a i, nx s' a i = nx s a i) : Links s' A V := by
  refine ⟨by rw [hs.max]; exact h.pos, by rw [hs.lv, hs.max]; exact h.hl, h.nodup, ?_, ?_, ?_, ?_, h.sorted, by rw [hs.vl]; exact h.head⟩
  · rw [hs.alloc]; exact h.fresh
  · intro a ha; rw [hs.lv, hs.max]; exact h.lvl a ha
  · intro a ha; rw [hs.vl]; exact h.vals a ha
  · intro X a Y e i hi
    rw [hs.lv] at hi
    rw [hn, h.link X a Y e i hi]
    simp only [hs.lv]

theorem widthLoop_spec {s : SkipList F} {P Q : List Nat} {n M level : Nat} {p : Nat → Nat} {V : Nat → F}
    (h : Links s (P ++ n :: Q) V) (hM : level ≤ M) (hn : lv s n = level)
    (hp : ∀ i < level, i < lv s (p i) ∧ p i ≠ n) (hw : ∀ i, 1 ≤ i → wd s n i = 0) :
    ∀ k ≤ level, ∃ (s' : SkipList F) (c : Nat → Int), Go.runOps (SkipList.widthAtLevel n ((List.range M).map p)) s (SkipList.from1 k) = .val s' ∧
      Same s s' ∧ (∀ a i, nx s' a i = nx s a i) ∧
      (∀ a i, wd s' a i = if 1 ≤ i ∧ i < k then (if a = n then c i else if a = p i then wd s a i - c i else wd s a i)
        else wd s a i) ∧
      ∀ i, 1 ≤ i → i < k → StopAt s' V (n :: Q) (i - 1) (Q.find? (fun b => decide (i < lv s b))) (c i) := by
  intro k
  induction k with
  | zero =>
    intro _
    exact ⟨s, fun _ => 0, rfl, Same.refl s, fun _ _ => rfl, fun _ _ => by simp, fun i _ h => by omega⟩
  | succ k ih =>
    intro hk
    by_cases h0 : k = 0
    · subst h0
      exact ⟨s, fun _ => 0, rfl, Same.refl s, fun _ _ => rfl, fun a i => by rw [if_neg (by omega)], fun i _ h => by omega⟩
    · obtain ⟨s1, c, r1, h1, n1, w1, st⟩ := ih (by omega)
      obtain ⟨hpk, hpn⟩ := hp k (by omega)
      have L1 := h.congr h1 n1
      have hkn : k < lv s1 n := by rw [h1.lv, hn]; omega
      have e1 : s1.nextAt n k = .val (Q.find? (fun b => decide (k < lv s b))) := by
        rw [nextAt_ok hkn, L1.link (0 :: P) n Q rfl k hkn]; simp only [h1.lv]
      have hlen := L1.length_lt
      simp at hlen
      obtain ⟨d, e2, st2⟩ := sumWidth_spec L1 (j := k - 1) (Q.find? (fun b => decide (k < lv s b))) (s1.alloc + 1) P n Q 0
        rfl (by omega) (by omega) (by
          intro t ht
          have := List.mem_of_find?_eq_some ht
          have h2 := List.find?_some ht
          simp at h2
          refine ⟨by simp [this], ?_⟩
          rw [h1.lv]; omega)
      rw [zero_add] at e2
      obtain ⟨s2, r2, h2, n2, w2⟩ := addWidth_spec s1 hkn d
      have hwn : wd s2 n k = d := by
        rw [w2, w1, if_pos ⟨rfl, rfl⟩, if_neg (by omega), hw k (by omega)]; ring
      obtain ⟨s3, r3, h3, n3, w3⟩ := addWidth_spec s2 (a := p k) (i := k) (by rw [h2.lv, h1.lv]; exact hpk) (-d)
      have hS := (h1.trans h2).trans h3
      have hW : ∀ a i, wd s3 a i = if 1 ≤ i ∧ i < k + 1 then
          (if a = n then (if i = k then d else c i) else if a = p i then wd s a i - (if i = k then d else c i) else wd s a i)
          else wd s a i := by
        intro a i
        rw [w3, w2, w1]
        by_cases ci : i = k
        · subst ci
          by_cases ca : a = n
          · subst ca; simp [Ne.symm hpn, hw i (by omega)]; omega
          · by_cases cp : a = p i
            · simp [cp, hpn]; rw [if_pos (by omega)]; ring
            · simp [ca, cp]
        · by_cases c2 : i < k
          · simp [ci, c2, show i < k + 1 by omega]
          · simp [ci, c2, show ¬ i < k + 1 by omega]
      refine ⟨s3, fun i => if i = k then d else c i, ?_, hS, fun a i => by rw [n3, n2, n1], hW, ?_⟩
      · rw [from1_succ (by omega), Go.runOps_append, r1]
        simp only [Go.runOps, SkipList.widthAtLevel, e1, Go.val_bind, e2, r2, idx_map p (show k < M by omega),
          widthAt_ok (s := s2) (a := n) (i := k) (by rw [h2.lv]; exact hkn), hwn, r3]
      · intro i hi1 hik
        have tr : ∀ {t : Option Nat} {x : Int}, StopAt s1 V (n :: Q) (i - 1) t x → StopAt s3 V (n :: Q) (i - 1) t x := by
          rintro t x ⟨B, C, g1, g2, g3⟩
          refine ⟨B, C, g1, ?_, ?_⟩
          · rw [g2]
            apply Cum_congr
            intro b _
            refine ⟨by rw [h3.lv, h2.lv], ?_⟩
            rw [w3, w2, if_neg (by omega), if_neg (by omega)]
          · cases t with
            | none => exact g3
            | some t => simpa only [h3.lv, h2.lv] using g3
        by_cases ci : i = k
        · subst ci; simp only [if_true]; exact tr st2
        · simp only [if_neg ci]; exact tr (st i hi1 (by omega))

/-! ### Splitting lists -/

theorem split_cmp {X Y X' Y' : List Nat} {a p : Nat} (h : X ++ a :: Y = X' ++ p :: Y') :
    (X = X' ∧ a = p ∧ Y = Y') ∨ (∃ Z, X' = X ++ a :: Z ∧ Y = Z ++ p :: Y') ∨ (∃ Z, X = X' ++ p :: Z ∧ Y' = Z ++ a :: Y) := by
  rcases List.append_eq_append_iff.1 h with ⟨Z, h1, h2⟩ | ⟨Z, h1, h2⟩
  · cases Z with
    | nil => simp at h1 h2; exact Or.inl ⟨h1.symm, h2.1, h2.2⟩
    | cons z Z =>
      simp at h2
      refine Or.inr (Or.inl ⟨Z, ?_, h2.2⟩)
      rw [h1, h2.1]
  · cases Z with
    | nil => simp at h1 h2; exact Or.inl ⟨h1, h2.1.symm, h2.2.symm⟩
    | cons z Z =>
      simp at h2
      refine Or.inr (Or.inr ⟨Z, ?_, h2.2⟩)
      rw [h1, h2.1]

theorem split_at {X Y P Q : List Nat} (h : P ++ Q = X ++ Y) :
    (∃ Z, X = P ++ Z ∧ Q = Z ++ Y) ∨ (∃ a Z, P = X ++ a :: Z ∧ Y = a :: Z ++ Q) := by
  rcases List.append_eq_append_iff.1 h with ⟨Z, h1, h2⟩ | ⟨Z, h1, h2⟩
  · exact Or.inl ⟨Z, h1, h2⟩
  · cases Z with
    | nil => exact Or.inl ⟨[], by simpa using h1.symm, by simpa using h2.symm⟩
    | cons z Z => exact Or.inr ⟨z, Z, h1, h2⟩

theorem prev_iff {s : SkipList F} {P : List Nat} {i p a : Nat} {X Y : List Nat} (hnd : (0 :: P).Nodup)
    (hp : IsPrev s P i p) (e : 0 :: P = X ++ a :: Y) (hi : i < lv s a) : a = p ↔ ∀ b ∈ Y, lv s b ≤ i := by
  obtain ⟨X', Y', e', hi', hY'⟩ := hp
  rcases split_cmp (e.symm.trans e') with ⟨h1, h2, h3⟩ | ⟨Z, h1, h2⟩ | ⟨Z, h1, h2⟩
  · subst h1 h2 h3; simp; exact hY'
  · have ne : a ≠ p := by
      rintro rfl
      rw [e, h2] at hnd
      simp [List.nodup_append] at hnd
    constructor
    · intro c; exact absurd c ne
    · intro c
      have := c p (by rw [h2]; simp)
      omega
  · have := hY' a (by rw [h2]; simp)
    omega

theorem IsPrev.mem {s : SkipList F} {P : List Nat} {i p : Nat} (h : IsPrev s P i p) : p ∈ 0 :: P := by
  obtain ⟨X, Y, e, -, -⟩ := h
  rw [e]; simp

theorem IsPrev.lt {s : SkipList F} {P : List Nat} {i p : Nat} (h : IsPrev s P i p) : i < lv s p := by
  obtain ⟨X, Y, -, h, -⟩ := h; exact h

/-- Proper prefixes followed by a node of level `i` do not contain the predecessor. -/
theorem IsPrev.not_mem {s : SkipList F} {P : List Nat} {i p a : Nat} {X Y : List Nat} (hnd : (0 :: P).Nodup)
    (hp : IsPrev s P i p) (e : 0 :: P = X ++ a :: Y) (hi : i < lv s a) : p ∉ X := by
  obtain ⟨X', Y', e', hi', hY'⟩ := hp
  rcases split_cmp (e.symm.trans e') with ⟨h1, h2, h3⟩ | ⟨Z, h1, h2⟩ | ⟨Z, h1, h2⟩
  · subst h1 h2 h3
    rw [e] at hnd; rw [List.nodup_append] at hnd
    intro c; exact hnd.2.2 a c a (by simp) rfl
  · rw [e', h1] at hnd; rw [List.nodup_append] at hnd
    intro c; exact hnd.2.2 p (by simp [c]) p (by simp) rfl
  · have := hY' a (by rw [h2]; simp)
    omega

/-- Changing one element of a duplicate-free list changes the sum by the difference. -/
theorem Cum_upd {s s' : SkipList F} {i p : Nat} {δ : Int} {X : List Nat} (hnd : X.Nodup) (hp : p ∈ X) (hi : i < lv s p)
    (hl : ∀ b ∈ X, lv s' b = lv s b) (hw : ∀ b ∈ X, wd s' b i = if b = p then wd s b i + δ else wd s b i) :
    Cum s' i X = Cum s i X + δ := by
  obtain ⟨Y, Z, rfl⟩ := List.append_of_mem hp
  rw [List.nodup_append] at hnd
  obtain ⟨h1, h2, h3⟩ := hnd
  rw [Cum_append, Cum_cons, Cum_append, Cum_cons, hl p (by simp), if_pos hi, if_pos hi, hw p (by simp), if_pos rfl]
  have e1 : Cum s' i Y = Cum s i Y := by
    apply Cum_congr; intro b hb
    refine ⟨hl b (by simp [hb]), ?_⟩
    rw [hw b (by simp [hb]), if_neg (h3 b hb p (by simp))]
  have e2 : Cum s' i Z = Cum s i Z := by
    apply Cum_congr; intro b hb
    refine ⟨hl b (by simp [hb]), ?_⟩
    rw [hw b (by simp [hb]), if_neg]
    rintro rfl; exact (List.nodup_cons.1 h2).1 hb
  rw [e1, e2]; ring

/-! ### The invariant -/

/-- The invariant that holds for all histories, also with duplicates. -/
structure Inv (s : SkipList F) (A : List Nat) (V : Nat → F) : Prop where
  links : Links s A V
  len : s.length = A.length
  w0 : ∀ a ∈ 0 :: A, wd s a 0 = 1
  tot : ∀ i < s.maxLevel, Cum s i (0 :: A) = A.length + 1
  mono : ∀ X Y, 0 :: A = X ++ Y → ∀ i, i + 1 < s.maxLevel → (∀ a, Y.head? = some a → i + 1 < lv s a) →
    Cum s i X ≤ Cum s (i + 1) X
  dup : ∀ X a Y b Z, A = X ++ a :: (Y ++ b :: Z) → ∀ i, i < lv s a → i < lv s b → (∀ c ∈ Y, lv s c ≤ i) → V a = V b →
    0 ≤ wd s a i

/-- The widths are the real distances. -/
def Exact (s : SkipList F) (A : List Nat) : Prop :=
  ∀ X Y, 0 :: A = X ++ Y → ∀ i < s.maxLevel, (∀ a, Y.head? = some a → i < lv s a) → Cum s i X = X.length

/-- What `Add` does to the store: `n` is the new node, `d i` its width at level `i`. -/
structure Added (s s' : SkipList F) (V' : Nat → F) (P Q : List Nat) (x : F) (n : Nat) (p : Nat → Nat) (d : Nat → Int) :
    Prop where
  lv : ∀ a, a ≠ n → lv s' a = lv s a
  lvn : 0 < Skip.lv s' n ∧ Skip.lv s' n ≤ s.maxLevel
  vl : ∀ a, vl s' a = if a = n then some x else vl s a
  max : s'.maxLevel = s.maxLevel
  alloc : s'.alloc = n + 1
  length : s'.length = s.length + 1
  nx : ∀ a i, nx s' a i = if i < Skip.lv s' n then (if a = n then Skip.nx s (p i) i else if a = p i then some n else Skip.nx s a i)
    else (if a = n then none else Skip.nx s a i)
  wd : ∀ a i, i < s.maxLevel → wd s' a i = if a = n then d i else if a = p i then Skip.wd s a i + (1 - d i) else Skip.wd s a i
  d0 : d 0 = 1
  dhi : ∀ i, Skip.lv s' n ≤ i → d i = 0
  stop : ∀ i, 1 ≤ i → i < Skip.lv s' n →
    StopAt s' V' (n :: Q) (i - 1) (Q.find? (fun b => decide (i < Skip.lv s' b))) (d i)

theorem Links.insert {s s1 : SkipList F} {A P Q : List Nat} {V : Nat → F} {x : F} (h : Links s A V) (hs : Split V A P Q x)
    {p : Nat → Nat} (hp : ∀ i < s.maxLevel, IsPrev s P i (p i)) {n : Nat} (hn : n = s.alloc)
    (hlv : ∀ a, a ≠ n → lv s1 a = lv s a) (hlvn : 0 < lv s1 n ∧ lv s1 n ≤ s.maxLevel)
    (hvl : ∀ a, vl s1 a = if a = n then some x else vl s a) (hmax : s1.maxLevel = s.maxLevel) (hal : s1.alloc = n + 1)
    (hnx : ∀ a i, nx s1 a i = if i < lv s1 n then (if a = n then nx s (p i) i else if a = p i then some n else nx s a i)
      else (if a = n then none else nx s a i)) :
    Links s1 (P ++ n :: Q) (Function.update V n x) := by
  have hnA : ∀ a ∈ 0 :: A, a ≠ n := by
    intro a ha; have := h.fresh a ha; omega
  have hnP : ∀ a ∈ 0 :: P, a ≠ n := fun a ha => hnA a (by rw [hs.eq]; simp at ha ⊢; tauto)
  have hnQ : ∀ a ∈ Q, a ≠ n := fun a ha => hnA a (by rw [hs.eq]; simp [ha])
  have hnd : (0 :: P).Nodup := by
    have := h.nodup; rw [hs.eq, ← List.cons_append] at this
    exact (List.nodup_append.1 this).1
  refine ⟨by rw [hmax]; exact h.pos, ?_, ?_, ?_, ?_, ?_, ?_, ?_, by rw [hvl, if_neg (hnA 0 (by simp))]; exact h.head⟩
  · rw [hlv 0 (hnA 0 (by simp)), hmax]; exact h.hl
  · have := h.nodup
    rw [hs.eq, ← List.cons_append] at this
    rw [← List.cons_append, List.nodup_append] at *
    refine ⟨this.1, List.nodup_cons.2 ⟨fun c => hnQ n c rfl, this.2.1⟩, ?_⟩
    intro a ha b hb
    rcases List.mem_cons.1 hb with rfl | hb
    · exact hnP a ha
    · exact this.2.2 a ha b hb
  · intro a ha
    rw [hal]
    by_cases c : a = n
    · omega
    · have : a ∈ 0 :: A := by rw [hs.eq]; simp [c] at ha ⊢; tauto
      have := h.fresh a this; omega
  · intro a ha
    by_cases c : a = n
    · subst c; rw [hmax]; exact hlvn
    · rw [hlv a c, hmax]; exact h.lvl a (by rw [hs.eq]; simp [c] at ha ⊢; tauto)
  · intro a ha
    rw [hvl]
    by_cases c : a = n
    · subst c; simp
    · rw [if_neg c, Function.update_of_ne c]; exact h.vals a (by rw [hs.eq]; simp [c] at ha ⊢; tauto)
  · intro X a Y e i hi
    have hcong : ∀ Z : List Nat, (∀ b ∈ Z, b ≠ n) →
        Z.find? (fun b => decide (i < lv s1 b)) = Z.find? (fun b => decide (i < lv s b)) := by
      intro Z hZ
      induction Z with
      | nil => rfl
      | cons z Z ih =>
        rw [List.find?_cons, List.find?_cons, hlv z (hZ z (by simp)), ih (fun b hb => hZ b (by simp [hb]))]
    rw [← List.cons_append] at e
    rcases split_cmp e with ⟨h1, h2, h3⟩ | ⟨Z, h1, h2⟩ | ⟨Z, h1, h2⟩
    · -- the new node itself
      subst h2 h3
      obtain ⟨X', Y', e', hi', hY'⟩ := hp i (by omega)
      have := h.link X' (p i) (Y' ++ Q) (by rw [hs.eq, ← List.cons_append, e']; simp) i hi'
      rw [hnx, if_pos hi, if_pos rfl, this, List.find?_append, find_none hY', Option.none_or, hcong Q hnQ]
    · -- a node of `Q`
      have haQ : a ∈ Q := by rw [h2]; simp
      have han := hnQ a haQ
      rw [hlv a han] at hi
      have := h.link (0 :: P ++ Z) a Y (by rw [hs.eq, h2]; simp) i hi
      rw [hnx, if_neg han, if_neg han, this, hcong Y (fun b hb => hnQ b (by rw [h2]; simp [hb]))]
      by_cases c : i < lv s1 n
      · rw [if_pos c, if_neg]
        rintro rfl
        have hm := (hp i (by omega)).mem
        have := h.nodup
        rw [hs.eq, ← List.cons_append] at this
        exact (List.nodup_append.1 this).2.2 _ hm _ haQ rfl
      · rw [if_neg c]
    · -- a node of `0 :: P`
      have haP : a ∈ 0 :: P := by rw [h1]; simp
      have han := hnP a haP
      rw [hlv a han] at hi
      have hiM : i < s.maxLevel := by
        rcases List.mem_cons.1 haP with rfl | c
        · rw [← h.hl]; exact hi
        · have := (h.lvl a (by rw [hs.eq]; simp [c])).2; omega
      have hold := h.link X a (Z ++ Q) (by rw [hs.eq, ← List.cons_append, h1]; simp) i hi
      have hZn : ∀ b ∈ Z, b ≠ n := fun b hb => hnP b (by rw [h1]; simp [hb])
      have hprev := prev_iff hnd (hp i hiM) h1 hi
      rw [hnx, if_neg han, if_neg han, h2, List.find?_append, hcong Z hZn]
      rw [List.find?_append] at hold
      rcases hz : Z.find? (fun b => decide (i < lv s b)) with _ | b
      · have hZ : ∀ b ∈ Z, lv s b ≤ i := by
          intro b hb; have := List.find?_eq_none.1 hz b hb; simpa using this
        rw [hz, Option.none_or] at hold
        rw [Option.none_or, List.find?_cons]
        by_cases c : i < lv s1 n
        · simp [c, hprev.2 hZ]
        · simp [c, hold, hcong Q hnQ]
      · rw [hz] at hold
        have hap : a ≠ p i := by
          intro c
          have := hprev.1 c b (List.mem_of_find?_eq_some hz)
          have h3 := List.find?_some hz
          simp at h3; omega
        simp [hap, hold]
  · rw [List.map_append, List.map_cons, Function.update_self]
    have e1 : P.map (Function.update V n x) = P.map V :=
      List.map_congr_left fun a ha => Function.update_of_ne (hnP a (by simp [ha])) _ _
    have e2 : Q.map (Function.update V n x) = Q.map V :=
      List.map_congr_left fun a ha => Function.update_of_ne (hnQ a ha) _ _
    rw [e1, e2]
    have hso := h.sorted
    rw [hs.eq, List.map_append, List.pairwise_append] at hso
    refine sorted_mid.2 ⟨hso.1, hso.2.1, ?_, ?_⟩
    · intro b hb
      obtain ⟨a, ha, rfl⟩ := List.mem_map.1 hb
      exact (hs.lt a ha).le
    · intro b hb
      obtain ⟨a, ha, rfl⟩ := List.mem_map.1 hb
      exact hs.ge a ha

end Verif.Skip
