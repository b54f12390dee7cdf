import Verif.Model.SkipCost
import Verif.Proofs.SkipRun
import Mathlib.Data.List.TakeWhile

/-! # Skip list: steps of the operations, as a function of the heights of the nodes -/

set_option linter.unusedSectionVars false
set_option linter.unusedSimpArgs false

namespace Verif.Skip
open Verif Verif.Spec Timed

/-! ### The versions with a clock compute the same -/

namespace SkipList
variable {F : Type} [GoOrd F]

@[local simp] theorem tick_out : tick.out = .val () := rfl
@[local simp] theorem ticks_out (n : Nat) : (ticks n).out = .val () := rfl

theorem runOps_cons {σ ι : Type} (step : σ → ι → Go σ) (s : σ) (i : ι) (is : List ι) :
    Go.runOps step s (i :: is) = step s i >>= fun s => Go.runOps step s is := by
  rw [Go.runOps]; cases step s i <;> rfl

theorem walkT_out (s : SkipList F) (x : F) (i : Nat) : ∀ f a, (s.walkT x i f a).out = s.walk x i f a := by
  intro f
  induction f with
  | zero => intro a; rfl
  | succ f ih =>
    intro a
    simp only [walkT, walk, bind_out, free_out]
    congr 1; funext o
    cases o with
    | none => rfl
    | some n => dsimp only; split_ifs <;> simp [ih]

theorem prevsDownT_out (s : SkipList F) (x : F) : ∀ i a, (s.prevsDownT x i a).out = s.prevsDown x i a := by
  intro i
  induction i with
  | zero => intro a; rfl
  | succ i ih => intro a; simp [prevsDownT, prevsDown, walkT_out, ih]

theorem getPrevsT_out (s : SkipList F) (x : F) : (s.getPrevsT x).out = s.getPrevs x := prevsDownT_out s x _ _

theorem loopT_out {σ ι : Type} (step : σ → ι → Go σ) : ∀ (is : List ι) (s : σ), (loopT step s is).out = Go.runOps step s is := by
  intro is
  induction is with
  | nil => intro s; rfl
  | cons i is ih => intro s; simp [loopT, runOps_cons, ih]

theorem sumWidthT_out (s : SkipList F) (target : Option Nat) (j : Nat) :
    ∀ f c acc, (s.sumWidthT target j f c acc).out = s.sumWidth target j f c acc := by
  intro f
  induction f with
  | zero => intro c acc; rfl
  | succ f ih =>
    intro c acc
    unfold sumWidthT sumWidth
    split_ifs
    · rfl
    · cases c <;> simp [ih]

theorem widthAtLevelT_out (n : Nat) (prevs : List Nat) (s : SkipList F) (i : Nat) :
    (widthAtLevelT n prevs s i).out = widthAtLevel n prevs s i := by
  simp [widthAtLevelT, widthAtLevel, sumWidthT_out]

theorem widthsT_out (n : Nat) (prevs : List Nat) : ∀ (is : List Nat) (s : SkipList F),
    (widthsT n prevs s is).out = Go.runOps (widthAtLevel n prevs) s is := by
  intro is
  induction is with
  | nil => intro s; rfl
  | cons i is ih => intro s; simp [widthsT, runOps_cons, widthAtLevelT_out, ih]

theorem addT_out (s : SkipList F) (x : F) : (s.addT x).out = s.add x := by
  simp [addT, add, getPrevsT_out, loopT_out, widthsT_out]

theorem removeT_out (s : SkipList F) (x : F) : (s.removeT x).out = s.remove x := by
  simp only [removeT, remove, bind_out, free_out, getPrevsT_out]
  congr 1; funext l
  congr 1; funext p
  congr 1; funext o
  cases o with
  | none => rfl
  | some n => dsimp only; split_ifs <;> simp [loopT_out]

theorem selWalkT_out (s : SkipList F) (k : Int) (i : Nat) : ∀ f a pos, (s.selWalkT k i f a pos).out = s.selWalk k i f a pos := by
  intro f
  induction f with
  | zero => intro a pos; rfl
  | succ f ih =>
    intro a pos
    cases a with
    | none => rfl
    | some a =>
      simp only [selWalkT, selWalk, bind_out, free_out]
      congr 1; funext w
      split_ifs <;> simp [ih]

theorem selDownT_out (s : SkipList F) (k : Int) : ∀ i a pos, (s.selDownT k i a pos).out = s.selDown k i a pos := by
  intro i
  induction i with
  | zero => intro a pos; rfl
  | succ i ih => intro a pos; simp [selDownT, selDown, selWalkT_out, ih]

theorem selectT_out (s : SkipList F) (k : Int) : (s.selectT k).out = s.select k := by
  unfold selectT select
  split_ifs
  · rfl
  · simp only [bind_out, selDownT_out]
    congr 1; funext o
    cases o <;> rfl

theorem rankWalkT_out (s : SkipList F) (x : F) (i : Nat) : ∀ f a r, (s.rankWalkT x i f a r).out = s.rankWalk x i f a r := by
  intro f
  induction f with
  | zero => intro a r; rfl
  | succ f ih =>
    intro a r
    simp only [rankWalkT, rankWalk, bind_out, free_out]
    congr 1; funext o
    cases o with
    | none => rfl
    | some n => dsimp only; split_ifs <;> simp [ih]

theorem rankDownT_out (s : SkipList F) (x : F) : ∀ i a r, (s.rankDownT x i a r).out = s.rankDown x i a r := by
  intro i
  induction i with
  | zero => intro a r; rfl
  | succ i ih => intro a r; simp [rankDownT, rankDown, rankWalkT_out, ih]

theorem rankT_out (s : SkipList F) (x : F) : (s.rankT x).out = s.rank x := rankDownT_out s x _ _ _

end SkipList

/-! ### Heights -/

/-- Walking back along nodes of the given heights (levels a node is in), the nodes of height exactly `m` that are met before any higher one. -/
def visits (m : Nat) (hs : List Nat) : Nat := (hs.takeWhile (· ≤ m)).count m

/-- … for all heights up to `i`. -/
def stairs : Nat → List Nat → Nat
  | 0, _ => 0
  | i + 1, hs => stairs i hs + visits (i + 1) hs

variable {F : Type} [LinearOrder F]

section
variable {s : SkipList F} {A : List Nat} {V : Nat → F}

theorem takeWhile_all {p : Nat → Bool} : ∀ l : List Nat, (∀ b ∈ l, p b = true) → l.takeWhile p = l
  | [], _ => rfl
  | b :: l, h => by rw [List.takeWhile_cons, if_pos (h b (by simp)), takeWhile_all l fun c hc => h c (by simp [hc])]

theorem prevsDownT_succ (s : SkipList F) (x : F) (i a : Nat) : (s.prevsDownT x (i + 1) a).cost =
    1 + ((s.walkT x i (s.alloc + 1) a).cost + match s.walk x i (s.alloc + 1) a with | .val p => (s.prevsDownT x i p).cost | _ => 0) := by
  have : ∀ (m : Timed (List Nat)) q, (m >>= fun a => pure (a ++ [q])).cost = m.cost := by
    intro m q; rw [bind_cost]; cases m.out <;> rfl
  simp only [SkipList.prevsDownT, tick_bind_cost]
  rw [bind_cost, SkipList.walkT_out]
  simp only [this]
  rcases s.walk x i (s.alloc + 1) a with _ | _ | _ <;> rfl

theorem takeWhile_back {P X Y : List Nat} {a m : Nat} (e : 0 :: P = X ++ a :: Y) (hY : ∀ b ∈ Y, lv s b ≤ m) (ha : X = [] ∨ m < lv s a) :
    (P.map (lv s)).reverse.takeWhile (· ≤ m) = (Y.map (lv s)).reverse := by
  have hall : (Y.map (lv s)).reverse.takeWhile (· ≤ m) = (Y.map (lv s)).reverse := by
    refine takeWhile_all _ ?_
    intro b hb
    simp only [List.mem_reverse, List.mem_map] at hb
    obtain ⟨c, hc, rfl⟩ := hb
    simpa using hY c hc
  cases X with
  | nil =>
    simp at e
    rw [e.2, hall]
  | cons z X =>
    have ha : m < lv s a := ha.resolve_left (by simp)
    simp at e
    rw [e.2, List.map_append, List.reverse_append, List.map_cons, List.reverse_cons, List.append_assoc, List.takeWhile_append, hall]
    simp [ha]

theorem visits_back {P X Y : List Nat} {a i : Nat} (e : 0 :: P = X ++ a :: Y) (hY : ∀ b ∈ Y, lv s b ≤ i + 1)
    (ha : X = [] ∨ i + 1 < lv s a) :
    visits (i + 1) (P.map (lv s)).reverse = Y.countP (fun b => decide (i < lv s b)) := by
  rw [visits, takeWhile_back e hY ha, List.count_reverse, List.count, List.countP_map]
  apply List.countP_congr
  intro b hb
  have := hY b hb
  simp
  omega

/-- The inner loop visits the nodes of level `i` between the place it starts from and the place it ends at. -/
theorem walkT_cost (h : Links s A V) {P Q : List Nat} {x : F} (hs : Split V A P Q x) {i : Nat} :
    ∀ (f : Nat) (X : List Nat) (a : Nat) (Y : List Nat), 0 :: P = X ++ a :: Y → i < lv s a → Y.length < f →
      (s.walkT x i f a).cost = Y.countP (fun b => decide (i < lv s b)) := by
  intro f
  induction f with
  | zero => intro X a Y _ _ hf; omega
  | succ f ih =>
    intro X a Y e hi hf
    have hn := h.link X a (Y ++ Q) (by rw [hs.eq, ← List.cons_append, e]; simp) i hi
    have hnx : s.nextAt a i = .val (nx s a i) := by rw [SkipList.nextAt, if_pos hi]
    rw [hn, List.find?_append] at hnx
    rcases hy : Y.find? (fun b => decide (i < lv s b)) with _ | b
    · have hY : ∀ b ∈ Y, ¬ (decide (i < lv s b)) = true := List.find?_eq_none.1 hy
      rw [List.countP_eq_zero.2 hY]
      rw [hy, Option.none_or] at hnx
      rcases hq : Q.find? (fun b => decide (i < lv s b)) with _ | c
      · rw [hq] at hnx; simp [SkipList.walkT, bind_cost, hnx]
      · rw [hq] at hnx
        have hc : c ∈ Q := List.mem_of_find?_eq_some hq
        simp [SkipList.walkT, bind_cost, hnx, (h.mem_split hs).2 hc]
    · obtain ⟨Y1, Y2, e1, hb, hY1⟩ := find_some hy
      rw [hy, Option.some_or] at hnx
      have hbP : b ∈ P := by
        have hb0 : b ∈ Y := by rw [e1]; simp
        cases X with
        | nil => simp at e; rw [e.2]; exact hb0
        | cons z X => simp at e; rw [e.2]; simp [hb0]
      have r := ih (X ++ a :: Y1) b Y2 (by rw [e, e1]; simp) hb (by rw [e1] at hf; simp at hf; omega)
      have z : Y1.countP (fun b => decide (i < lv s b)) = 0 := by
        rw [List.countP_eq_zero]; intro c hc; have := hY1 c hc; simpa using this
      rw [e1, List.countP_append, z, List.countP_cons_of_pos (by simpa using hb), ← r]
      simp only [SkipList.walkT, bind_cost, free_out, free_cost, hnx, (h.mem_split hs).1 hbP, if_true, SkipList.tick_out]
      show 0 + (1 + _) = _
      omega

theorem prevsDownT_cost (h : Links s A V) {P Q : List Nat} {x : F} (hs : Split V A P Q x) :
    ∀ (i : Nat) (X : List Nat) (a : Nat) (Y : List Nat), 0 :: P = X ++ a :: Y → i ≤ lv s a → (∀ b ∈ Y, lv s b ≤ i) →
      (X = [] ∨ i < lv s a) → (s.prevsDownT x i a).cost = i + stairs i (P.map (lv s)).reverse := by
  have hlen : P.length + 1 ≤ s.alloc := by
    have := h.length_lt; rw [hs.eq] at this; simp at this; omega
  intro i
  induction i with
  | zero => intro X a Y _ _ _ _; rfl
  | succ i ih =>
    intro X a Y e hi hY ha
    have hYl : Y.length < s.alloc + 1 := by
      have := congrArg List.length e; simp at this; omega
    obtain ⟨X', q, Y', w, e', hq, hY'⟩ := walk_spec (i := i) h hs (s.alloc + 1) X a Y e (by omega) hYl
    have c := walkT_cost (i := i) h hs (s.alloc + 1) X a Y e (by omega) hYl
    have r := ih X' q Y' e' hq.le hY' (.inr hq)
    rw [prevsDownT_succ, w, c, stairs, visits_back e hY ha]
    dsimp only
    rw [r]
    omega

/-- The steps of `getPrevs`. -/
theorem getPrevsT_cost (h : Links s A V) {P Q : List Nat} {x : F} (hs : Split V A P Q x) :
    (s.getPrevsT x).cost = s.maxLevel + stairs s.maxLevel (P.map (lv s)).reverse :=
  prevsDownT_cost h hs s.maxLevel [] 0 P rfl (by rw [h.hl])
    (fun b hb => (h.lvl b (by rw [hs.eq]; simp [hb])).2) (.inl rfl)

end

/-- `Rank` takes the steps of `getPrevs`. -/
theorem rankWalkT_eq (s : SkipList F) (x : F) (i : Nat) : ∀ f a r, (s.rankWalkT x i f a r).cost = (s.walkT x i f a).cost ∧
    s.walk x i f a = s.rankWalk x i f a r >>= fun p => .val p.1 := by
  intro f
  induction f with
  | zero => intro a r; exact ⟨rfl, rfl⟩
  | succ f ih =>
    intro a r
    by_cases hi : i < lv s a
    · simp only [SkipList.rankWalkT, SkipList.walkT, SkipList.walk, SkipList.rankWalk, bind_cost, free_out, free_cost, nextAt_ok hi,
        Go.val_bind]
      cases nx s a i with
      | none => exact ⟨rfl, rfl⟩
      | some n =>
        dsimp only
        split_ifs
        · obtain ⟨h1, h2⟩ := ih n (r + wd s a i)
          rw [widthAt_ok hi, Go.val_bind]
          refine ⟨?_, h2⟩
          simp only [tick_bind_cost, bind_cost, free_out, free_cost]
          rw [h1]
          simp only [SkipList.tick_out]
          omega
        · exact ⟨rfl, rfl⟩
    · have e : s.nextAt a i = .panic := if_neg hi
      simp [SkipList.rankWalkT, SkipList.walkT, SkipList.walk, SkipList.rankWalk, bind_cost, e]

theorem rankDownT_eq (s : SkipList F) (x : F) : ∀ i a r, (s.rankDownT x i a r).cost = (s.prevsDownT x i a).cost := by
  intro i
  induction i with
  | zero => intro a r; rfl
  | succ i ih =>
    intro a r
    obtain ⟨h1, h2⟩ := rankWalkT_eq s x i (s.alloc + 1) a r
    rw [prevsDownT_succ, h2]
    simp only [SkipList.rankDownT, tick_bind_cost]
    rw [bind_cost, SkipList.rankWalkT_out, h1]
    rcases s.rankWalk x i (s.alloc + 1) a r with ⟨p, r'⟩ | _ | _
    · simp only [Go.val_bind, ih]
    · rfl
    · rfl

/-! ### `Select` with exact widths -/

section select
variable {s : SkipList F} {A : List Nat} {V : Nat → F}

theorem wd_exact (h : Inv s A V) (hE : Exact s A) {X Y1 T : List Nat} {a i : Nat} (e : 0 :: A = X ++ a :: (Y1 ++ T)) (hi : i < s.maxLevel)
    (ha : i < lv s a) (hY1 : ∀ b ∈ Y1, lv s b ≤ i) (hT : ∀ b, T.head? = some b → i < lv s b) : wd s a i = Y1.length + 1 := by
  have h1 := hE X (a :: (Y1 ++ T)) e i hi (by simpa using ha)
  have h2 := hE (X ++ a :: Y1) T (by rw [e]; simp) i hi hT
  rw [Cum_append, Cum_cons, if_pos ha, Cum_low hY1, h1] at h2
  simp at h2
  omega

theorem selWalkT_spec (h : Inv s A V) (hE : Exact s A) {P Q : List Nat} (hA : A = P ++ Q) {i : Nat} (hi : i < s.maxLevel) :
    ∀ (f : Nat) (X : List Nat) (a : Nat) (Y : List Nat), 0 :: P = X ++ a :: Y → i < lv s a → Y.length < f →
      ∃ X' p Y', s.selWalk P.length i f (some a) X.length = .val (some p, X'.length) ∧ 0 :: P = X' ++ p :: Y' ∧ i < lv s p ∧
        (∀ b ∈ Y', lv s b ≤ i) ∧ (s.selWalkT P.length i f (some a) X.length).cost = Y.countP (fun b => decide (i < lv s b)) := by
  intro f
  induction f with
  | zero => intro X a Y _ _ hf; omega
  | succ f ih =>
    intro X a Y e ha hf
    have eA : 0 :: A = X ++ a :: (Y ++ Q) := by rw [hA, ← List.cons_append, e]; simp
    have hl : P.length = X.length + Y.length := by have := congrArg List.length e; simp at this; omega
    rcases hy : Y.find? (fun b => decide (i < lv s b)) with _ | b
    · have hY : ∀ b ∈ Y, lv s b ≤ i := by
        intro b hb; have := List.find?_eq_none.1 hy b hb; simpa using this
      have hw : (Y.length : Int) + 1 ≤ wd s a i := by
        rcases hq : Q.find? (fun b => decide (i < lv s b)) with _ | c
        · have hQ : ∀ b ∈ Q, lv s b ≤ i := by
            intro b hb; have := List.find?_eq_none.1 hq b hb; simpa using this
          rw [wd_exact h hE (X := X) (T := []) (Y1 := Y ++ Q) (by rw [eA]; simp) hi ha
            (fun b hb => (List.mem_append.1 hb).elim (hY b) (hQ b)) (by simp)]
          simp only [List.length_append]; omega
        · obtain ⟨Q1, Q2, e1, hc, hQ1⟩ := find_some hq
          rw [wd_exact h hE (X := X) (T := c :: Q2) (Y1 := Y ++ Q1) (by rw [eA, e1]; simp) hi ha
            (fun b hb => (List.mem_append.1 hb).elim (hY b) (hQ1 b)) (by simpa using hc)]
          simp only [List.length_append]; omega
      have hle : ¬ ((X.length : Int) + wd s a i ≤ P.length) := by omega
      refine ⟨X, a, Y, by simp [SkipList.selWalk, widthAt_ok ha, hle], e, ha, hY, ?_⟩
      rw [List.countP_eq_zero.2 (List.find?_eq_none.1 hy)]
      simp [SkipList.selWalkT, bind_cost, widthAt_ok ha, hle]
    · obtain ⟨Y1, Y2, e1, hb, hY1⟩ := find_some hy
      have hw : wd s a i = Y1.length + 1 :=
        wd_exact h hE (X := X) (Y1 := Y1) (T := b :: (Y2 ++ Q)) (by rw [eA, e1]; simp) hi ha hY1 (by simpa using hb)
      have hle : (X.length : Int) + wd s a i ≤ P.length := by rw [hw, hl, e1]; simp
      obtain ⟨X', p, Y', r, g1, g2, g3, g4⟩ := ih (X ++ a :: Y1) b Y2 (by rw [e, e1]; simp) hb (by rw [e1] at hf; simp at hf; omega)
      have hpos : (X.length : Int) + wd s a i = ((X ++ a :: Y1).length : Nat) := by rw [hw]; simp
      have hn : nx s a i = some b := by
        rw [h.links.link X a (Y ++ Q) eA i ha, List.find?_append, hy]; rfl
      refine ⟨X', p, Y', ?_, g1, g2, g3, ?_⟩
      · simp only [SkipList.selWalk, widthAt_ok ha, nextAt_ok ha, Go.val_bind, hle, if_true, hn]
        rw [hpos, r]
      · have z : Y1.countP (fun b => decide (i < lv s b)) = 0 := by
          rw [List.countP_eq_zero]; intro c hc; have := hY1 c hc; simpa using this
        rw [e1, List.countP_append, z, List.countP_cons_of_pos (by simpa using hb), ← g4, ← hpos]
        simp only [SkipList.selWalkT]
        rw [bind_cost]
        simp only [free_out, free_cost, widthAt_ok ha, hle, if_true, tick_bind_cost]
        rw [bind_cost]
        simp only [free_out, free_cost, nextAt_ok ha, hn]
        omega

theorem selDownT_cost (h : Inv s A V) (hE : Exact s A) {P Q : List Nat} (hA : A = P ++ Q) :
    ∀ (i : Nat) (X : List Nat) (a : Nat) (Y : List Nat), 0 :: P = X ++ a :: Y → i ≤ lv s a → i ≤ s.maxLevel → (∀ b ∈ Y, lv s b ≤ i) →
      (X = [] ∨ i < lv s a) → (s.selDownT P.length i (some a) X.length).cost = i + stairs i (P.map (lv s)).reverse := by
  have hlen := h.links.length_lt
  intro i
  induction i with
  | zero => intro X a Y _ _ _ _ _; rfl
  | succ i ih =>
    intro X a Y e hi hm hY ha
    have hYl : Y.length < s.alloc + 1 := by
      have := congrArg List.length e
      rw [hA] at hlen
      simp at this hlen; omega
    obtain ⟨X', p, Y', r, g1, g2, g3, g4⟩ := selWalkT_spec h hE hA (i := i) (by omega) (s.alloc + 1) X a Y e (by omega) hYl
    have r' := ih X' p Y' g1 g2.le (by omega) g3 (.inr g2)
    simp only [SkipList.selDownT, tick_bind_cost]
    rw [bind_cost, SkipList.selWalkT_out, r]
    simp only
    rw [r', g4, stairs, visits_back e hY ha]
    omega

/-- The steps of `Select(k)` are those of `getPrevs` for a value just above the `k`-th. -/
theorem selectT_cost (h : Inv s A V) (hE : Exact s A) {k : Nat} (hk : k < A.length) :
    (s.selectT k).cost = s.maxLevel + stairs s.maxLevel ((A.take (k + 1)).map (lv s)).reverse := by
  have c := selDownT_cost h hE (List.take_append_drop (k + 1) A).symm s.maxLevel [] 0 (A.take (k + 1)) rfl (by rw [h.links.hl]) le_rfl
    (fun b hb => (h.links.lvl b (List.mem_of_mem_take hb)).2) (.inl rfl)
  have hl : ((A.take (k + 1)).length : Int) = k + 1 := by simp; omega
  rw [hl] at c
  unfold SkipList.selectT
  rw [if_neg (by rw [h.len]; omega), bind_cost, ← c]
  simp only [List.length_nil, Nat.cast_zero]
  rcases (s.selDownT (k + 1) s.maxLevel (some 0) 0).out with (_ | _) | _ | _ <;> rfl

end select

/-! ### `Add` and `Remove` -/

theorem Same.symm {s t : SkipList F} (h : Same s t) : Same t s :=
  ⟨fun a => (h.lv a).symm, fun a => (h.vl a).symm, h.max.symm, h.alloc.symm, h.length.symm, h.draws.symm, h.drawn.symm⟩

theorem setNext_same {s s' : SkipList F} {a i : Nat} {p : Option Nat} (e : s.setNext a i p = .val s') : Same s s' := by
  by_cases hi : i < lv s a
  · obtain ⟨t, r, h, -⟩ := setNext_spec s hi p
    rw [r] at e; cases e; exact h
  · rw [SkipList.setNext, if_neg hi] at e; cases e

theorem addWidth_same {s s' : SkipList F} {a i : Nat} {d : Int} (e : s.addWidth a i d = .val s') :
    Same s s' ∧ ∀ b j, nx s' b j = nx s b j := by
  by_cases hi : i < lv s a
  · obtain ⟨t, r, h, g, -⟩ := addWidth_spec s hi d
    rw [r] at e; cases e; exact ⟨h, g⟩
  · rw [SkipList.addWidth, if_neg hi] at e; cases e

theorem linkAt_same {n : Nat} {prevs : List Nat} {s s' : SkipList F} {i : Nat} (e : SkipList.linkAt n prevs s i = .val s') : Same s s' := by
  unfold SkipList.linkAt at e
  obtain ⟨p, -, e⟩ := Go.bind_eq_val.1 e
  obtain ⟨q, -, e⟩ := Go.bind_eq_val.1 e
  obtain ⟨t, e1, e2⟩ := Go.bind_eq_val.1 e
  exact (setNext_same e1).trans (setNext_same e2)

theorem bumpAt_same {prevs : List Nat} {s s' : SkipList F} {i : Nat} (e : SkipList.bumpAt prevs s i = .val s') : Same s s' := by
  unfold SkipList.bumpAt at e
  obtain ⟨p, -, e⟩ := Go.bind_eq_val.1 e
  exact (addWidth_same e).1

theorem widthAtLevel_same {n : Nat} {prevs : List Nat} {s s' : SkipList F} {i : Nat} (e : SkipList.widthAtLevel n prevs s i = .val s') :
    Same s s' ∧ ∀ b j, nx s' b j = nx s b j := by
  unfold SkipList.widthAtLevel at e
  obtain ⟨t, -, e⟩ := Go.bind_eq_val.1 e
  obtain ⟨w, -, e⟩ := Go.bind_eq_val.1 e
  obtain ⟨s1, e1, e⟩ := Go.bind_eq_val.1 e
  obtain ⟨p, -, e⟩ := Go.bind_eq_val.1 e
  obtain ⟨wn, -, e⟩ := Go.bind_eq_val.1 e
  have h1 := addWidth_same e1
  have h2 := addWidth_same e
  exact ⟨h1.1.trans h2.1, fun b j => by rw [h2.2, h1.2]⟩

theorem loop_same {ι : Type} {step : SkipList F → ι → Go (SkipList F)} (h : ∀ s s' i, step s i = .val s' → Same s s') :
    ∀ (is : List ι) (s s' : SkipList F), Go.runOps step s is = .val s' → Same s s' := by
  intro is
  induction is with
  | nil => intro s s' e; cases e; exact Same.refl s
  | cons i is ih =>
    intro s s' e
    rw [SkipList.runOps_cons] at e
    obtain ⟨t, e1, e2⟩ := Go.bind_eq_val.1 e
    exact (h _ _ _ e1).trans (ih _ _ e2)

theorem widths_same {n : Nat} {prevs : List Nat} : ∀ (is : List Nat) (s s' : SkipList F),
    Go.runOps (SkipList.widthAtLevel n prevs) s is = .val s' → Same s s' ∧ ∀ b j, nx s' b j = nx s b j := by
  intro is
  induction is with
  | nil => intro s s' e; cases e; exact ⟨Same.refl s, fun _ _ => rfl⟩
  | cons i is ih =>
    intro s s' e
    rw [SkipList.runOps_cons] at e
    obtain ⟨t, e1, e2⟩ := Go.bind_eq_val.1 e
    have h1 := widthAtLevel_same e1
    have h2 := ih _ _ e2
    exact ⟨h1.1.trans h2.1, fun b j => by rw [h2.2, h1.2]⟩

theorem cost_val {α β : Type} {m : Timed α} {f : α → Timed β} {a : α} (h : m.out = .val a) : (m >>= f).cost = m.cost + (f a).cost := by
  rw [bind_cost, h]

theorem loopT_cost {σ ι : Type} (step : σ → ι → Go σ) : ∀ (is : List ι) (s : σ), (SkipList.loopT step s is).cost ≤ is.length := by
  intro is
  induction is with
  | nil => intro s; exact le_rfl
  | cons i is ih =>
    intro s
    simp only [SkipList.loopT, tick_bind_cost, List.length_cons]
    have := bind_cost_le (m := free (step s i)) (f := fun s => SkipList.loopT step s is) (x := 0) (y := is.length) (by simp) fun a _ => ih a
    omega

section add
variable {s : SkipList F} {A : List Nat} {V : Nat → F}

/-- The nodes in front of the first one that is in level `j + 1`, of those in level `j`. -/
def front (s : SkipList F) (j : Nat) (Y : List Nat) : Nat := (Y.takeWhile fun b => decide (lv s b ≤ j + 1)).countP fun b => decide (j < lv s b)

theorem front_append {j : Nat} {Y1 Y2 : List Nat} (h : ∀ b ∈ Y1, lv s b ≤ j) : front s j (Y1 ++ Y2) = front s j Y2 := by
  induction Y1 with
  | nil => rfl
  | cons a Y1 ih =>
    have ha := h a (by simp)
    rw [← ih fun b hb => h b (by simp [hb])]
    unfold front
    rw [List.cons_append, List.takeWhile_cons, if_pos (by simp; omega), List.countP_cons_of_neg (by simp; omega)]

theorem front_cons {j a : Nat} {Y : List Nat} (h1 : j < lv s a) (h2 : lv s a ≤ j + 1) : front s j (a :: Y) = front s j Y + 1 := by
  unfold front
  rw [List.takeWhile_cons, if_pos (by simpa using h2), List.countP_cons_of_pos (by simpa using h1)]

theorem front_visits (j : Nat) (Y : List Nat) : front s j Y = visits (j + 1) (Y.map (lv s)) := by
  unfold front visits
  rw [List.takeWhile_map, List.count, List.countP_map]
  apply List.countP_congr
  intro b hb
  have h := List.mem_takeWhile_imp hb
  simp at h ⊢
  omega

theorem sumWidthT_cost (h : Links s A V) {j : Nat} : ∀ (f : Nat) (X : List Nat) (a : Nat) (Y : List Nat) (acc : Int), A = X ++ a :: Y →
    j < lv s a → (s.sumWidthT ((a :: Y).find? fun b => decide (j + 1 < lv s b)) j f (some a) acc).cost ≤ front s j (a :: Y) := by
  intro f
  induction f with
  | zero => intro X a Y acc _ _; exact Nat.zero_le _
  | succ f ih =>
    intro X a Y acc e hj
    have haA : a ∈ A := by rw [e]; simp
    unfold SkipList.sumWidthT
    split_ifs with he
    · exact Nat.zero_le _
    by_cases hl : j + 1 < lv s a
    · exfalso
      rw [List.find?_cons_of_pos (by simpa using hl), equals_some h.vals haA haA] at he
      simp at he
    · rw [front_cons hj (by omega), List.find?_cons_of_neg (by simpa using hl)]
      simp only [tick_bind_cost]
      rw [cost_val (a := wd s a j) (widthAt_ok hj), cost_val (a := nx s a j) (nextAt_ok hj), h.link (0 :: X) a Y (by rw [e]; rfl) j hj]
      simp only [free_cost]
      rcases hy : Y.find? (fun b => decide (j < lv s b)) with _ | b
      · have : ∀ t, (s.sumWidthT t j f none (acc + wd s a j)).cost = 0 := by
          intro t
          cases f with
          | zero => rfl
          | succ f => unfold SkipList.sumWidthT; split_ifs <;> rfl
        rw [this]; omega
      · obtain ⟨Y1, Y2, e1, hb, hY1⟩ := find_some hy
        have r := ih (X ++ a :: Y1) b Y2 (acc + wd s a j) (by rw [e, e1]; simp) hb
        have ef : Y.find? (fun b => decide (j + 1 < lv s b)) = (b :: Y2).find? (fun b => decide (j + 1 < lv s b)) := by
          rw [e1, List.find?_append, find_none (fun c hc => by have := hY1 c hc; omega), Option.none_or]
        rw [ef, e1, front_append hY1]
        omega

/-- The loop for one level starting at the new node. -/
theorem sumWidthT_new (h : Links s A V) {j : Nat} (f : Nat) {X : List Nat} {a : Nat} {Y : List Nat} (acc : Int) (e : A = X ++ a :: Y)
    (hj : j < lv s a) : (s.sumWidthT (Y.find? fun b => decide (j + 1 < lv s b)) j f (some a) acc).cost ≤ 1 + visits (j + 1) (Y.map (lv s)) := by
  rw [← front_visits]
  cases f with
  | zero => exact Nat.zero_le _
  | succ f =>
    unfold SkipList.sumWidthT
    split_ifs with he
    · exact Nat.zero_le _
    simp only [tick_bind_cost]
    rw [cost_val (a := wd s a j) (widthAt_ok hj), cost_val (a := nx s a j) (nextAt_ok hj), h.link (0 :: X) a Y (by rw [e]; rfl) j hj]
    simp only [free_cost]
    rcases hy : Y.find? (fun b => decide (j < lv s b)) with _ | b
    · have : ∀ t, (s.sumWidthT t j f none (acc + wd s a j)).cost = 0 := by
        intro t
        cases f with
        | zero => rfl
        | succ f => unfold SkipList.sumWidthT; split_ifs <;> rfl
      rw [this]; omega
    · obtain ⟨Y1, Y2, e1, hb, hY1⟩ := find_some hy
      have r := sumWidthT_cost h f (X ++ a :: Y1) b Y2 (acc + wd s a j) (by rw [e, e1]; simp) hb
      have ef : Y.find? (fun b => decide (j + 1 < lv s b)) = (b :: Y2).find? (fun b => decide (j + 1 < lv s b)) := by
        rw [e1, List.find?_append, find_none (fun c hc => by have := hY1 c hc; omega), Option.none_or]
      rw [ef, e1, front_append hY1]
      omega

theorem widthsT_cost {n : Nat} {prevs P Q : List Nat} : ∀ (is : List Nat) (s : SkipList F), Links s (P ++ n :: Q) V → (∀ i ∈ is, 1 ≤ i ∧ i < lv s n) →
    (SkipList.widthsT n prevs s is).cost ≤ (is.map fun i => 2 + visits i (Q.map (lv s))).sum := by
  intro is
  induction is with
  | nil => intro s _ _; exact le_rfl
  | cons i is ih =>
    intro s h hi
    obtain ⟨h1, h2⟩ := hi i (by simp)
    have c : (SkipList.widthAtLevelT n prevs s i).cost ≤ 1 + visits i (Q.map (lv s)) := by
      unfold SkipList.widthAtLevelT
      have hn : (free (s.nextAt n i)).out = .val (Q.find? fun b => decide (i < lv s b)) := by
        rw [free_out, nextAt_ok h2, h.link (0 :: P) n Q rfl i h2]
      rw [cost_val hn]
      obtain ⟨j, rfl⟩ : ∃ j, i = j + 1 := ⟨i - 1, by omega⟩
      have r := sumWidthT_new h (j := j) (s.alloc + 1) 0 (rfl : P ++ n :: Q = P ++ n :: Q) (by omega)
      rw [Nat.add_sub_cancel, free_cost, Nat.zero_add]
      refine le_trans (bind_cost_le (y := 0) r fun w _ => ?_) (by omega)
      refine le_trans (bind_cost_le (x := 0) (y := 0) le_rfl fun _ _ => ?_) (by omega)
      refine le_trans (bind_cost_le (x := 0) (y := 0) le_rfl fun _ _ => ?_) (by omega)
      refine le_trans (bind_cost_le (x := 0) (y := 0) le_rfl fun _ _ => ?_) (by omega)
      exact le_rfl
    simp only [SkipList.widthsT, tick_bind_cost, List.map_cons, List.sum_cons]
    refine le_trans (Nat.add_le_add_left (bind_cost_le (y := (is.map fun i => 2 + visits i (Q.map (lv s))).sum) c fun s' e => ?_) 1) (by omega)
    rw [SkipList.widthAtLevelT_out] at e
    obtain ⟨g1, g2⟩ := widthAtLevel_same e
    have := ih s' (h.congr g1 g2) fun i hi' => by rw [g1.lv]; exact hi i (by simp [hi'])
    simpa only [show lv s' = lv s from funext g1.lv] using this

theorem from1_sum (f : Nat → Nat) : ∀ k, ((SkipList.from1 (k + 1)).map fun i => 2 + f i).sum = 2 * k + ((SkipList.from1 (k + 1)).map f).sum := by
  intro k
  induction k with
  | zero => rfl
  | succ k ih => rw [from1_succ (by omega), List.map_append, List.map_append, List.sum_append, List.sum_append, ih]; simp; omega

theorem stairs_from1 (hs : List Nat) : ∀ k, ((SkipList.from1 (k + 1)).map fun i => visits i hs).sum = stairs k hs := by
  intro k
  induction k with
  | zero => rfl
  | succ k ih => rw [from1_succ (by omega), List.map_append, List.sum_append, ih, stairs]; simp

theorem stairs_mono (hs : List Nat) {i j : Nat} (h : i ≤ j) : stairs i hs ≤ stairs j hs := by
  induction h with
  | refl => exact le_rfl
  | step _ ih => exact le_trans ih (Nat.le_add_right _ _)

/-- The steps of `Add`, and the height of the new node. -/
theorem addT_cost (h : Links s A V) {P Q : List Nat} {x : F} (hs : Split V A P Q x) {s' : SkipList F} (e : s.add x = .val s') :
    (s.addT x).cost ≤ 6 * s.maxLevel + stairs s.maxLevel (P.map (lv s)).reverse + stairs (s.maxLevel - 1) (Q.map (lv s)) ∧
      lv s' s.alloc = s.randLevel := by
  obtain ⟨t, p, d, e', -, ha, hl, -, -⟩ := add_added h hs
  rw [e] at e'; cases e'
  have hlb : 1 ≤ s.randLevel ∧ s.randLevel ≤ s.maxLevel := levelLoop_bounds s.maxLevel _ s.maxLevel 1 h.pos
  unfold SkipList.add at e
  obtain ⟨prevs, e0, e⟩ := Go.bind_eq_val.1 e
  obtain ⟨s1, e1, e⟩ := Go.bind_eq_val.1 e
  obtain ⟨s2, e2, e⟩ := Go.bind_eq_val.1 e
  obtain ⟨s3, e3, e⟩ := Go.bind_eq_val.1 e
  obtain ⟨s4, e4, e⟩ := Go.bind_eq_val.1 e
  cases e
  have S1 := loop_same (fun _ _ _ => linkAt_same) _ _ _ e1
  have S2 := (addWidth_same e2).1
  have S3 := loop_same (fun _ _ _ => bumpAt_same) _ _ _ e3
  obtain ⟨S4, N4⟩ := widths_same _ _ _ e4
  have hn : lv s3 s.alloc = s.randLevel := by
    rw [S3.lv, S2.lv, S1.lv]; simp [lv, SkipList.upd]
  have L4 : Links s4 (P ++ s.alloc :: Q) (Function.update V s.alloc x) :=
    ⟨hl.pos, hl.hl, hl.nodup, hl.fresh, hl.lvl, hl.vals, hl.link, hl.sorted, hl.head⟩
  have L3 := L4.congr S4.symm fun a i => (N4 a i).symm
  refine ⟨?_, ?_⟩
  · have c4 := widthsT_cost (prevs := prevs) (SkipList.from1 s.randLevel) s3 L3 (by
      intro i hi
      simp [SkipList.from1] at hi
      rw [hn]; omega)
    have hQ : Q.map (lv s3) = Q.map (lv s) := by
      apply List.map_congr_left
      intro b hb
      have hb' : b ≠ s.alloc := by
        have := h.fresh b (by rw [hs.eq]; simp [hb]); omega
      rw [← S4.lv]; exact ha.lv b hb'
    obtain ⟨k, hk⟩ : ∃ k, s.randLevel = k + 1 := ⟨s.randLevel - 1, by omega⟩
    rw [hQ, hk, from1_sum, stairs_from1, ← hk] at c4
    have c3 := loopT_cost (SkipList.bumpAt prevs) (SkipList.from1 s2.maxLevel) s2
    have hm : s2.maxLevel = s.maxLevel := by rw [S2.max, S1.max]; rfl
    have l3 : (SkipList.from1 s2.maxLevel).length ≤ s.maxLevel := by simp [SkipList.from1, hm]
    have c0 := getPrevsT_cost h hs
    have st := stairs_mono (Q.map (lv s)) (show k ≤ s.maxLevel - 1 by omega)
    unfold SkipList.addT
    rw [cost_val ((SkipList.getPrevsT_out s x).trans e0)]
    simp only [ticks_bind_cost]
    rw [cost_val ((SkipList.loopT_out _ _ _).trans e1), cost_val (a := s2) e2, cost_val ((SkipList.loopT_out _ _ _).trans e3),
      cost_val ((SkipList.widthsT_out _ _ _ _).trans e4)]
    simp only [free_cost, pure_cost]
    generalize hc : (SkipList.loopT (SkipList.linkAt s.alloc prevs) _ (List.range s.randLevel)).cost = c
    have c1 : c ≤ (List.range s.randLevel).length := hc ▸ loopT_cost _ _ _
    rw [List.length_range] at c1
    omega
  · show lv s4 s.alloc = _
    rw [S4.lv, hn]

/-- The steps of `Remove`. -/
theorem removeT_cost (h : Links s A V) {P Q : List Nat} {x : F} (hs : Split V A P Q x) :
    (s.removeT x).cost ≤ 2 * s.maxLevel + stairs s.maxLevel (P.map (lv s)).reverse := by
  have c0 := getPrevsT_cost h hs
  obtain ⟨p, hg, -⟩ := getPrevs_spec h hs
  unfold SkipList.removeT
  rw [cost_val ((SkipList.getPrevsT_out s x).trans hg), c0]
  suffices hh : ∀ m : Timed Nat, m.cost = 0 → (m >>= fun q => free (s.nextAt q 0) >>= fun o => match o with
      | none => pure s
      | some n => if s.valEq n x = true then SkipList.loopT (SkipList.unlinkAt n ((List.range s.maxLevel).map p)) s
          (List.range ((List.range s.maxLevel).map p).length) >>= fun s => pure { s with length := s.length - 1 } else pure s).cost ≤ s.maxLevel by
    have := hh (free (SkipList.idx ((List.range s.maxLevel).map p) 0)) rfl
    refine le_trans (Nat.add_le_add_left this _) (by omega)
  intro m hm
  refine le_trans (bind_cost_le (x := 0) hm.le fun q _ => bind_cost_le (x := 0) (y := s.maxLevel) le_rfl fun o _ => ?_) (by omega)
  cases o with
  | none => exact Nat.zero_le _
  | some n =>
    dsimp only
    split_ifs
    · refine le_trans (bind_cost_le (y := 0) (loopT_cost _ _ _) fun _ _ => le_rfl) (by simp)
    · exact Nat.zero_le _

end add

/-- `Add` begins with the search. -/
theorem getPrevsT_le (s : SkipList F) (x : F) : (s.getPrevsT x).cost ≤ (s.addT x).cost := by
  unfold SkipList.addT
  rw [bind_cost]
  exact Nat.le_add_right _ _

end Verif.Skip
