import Verif.Proofs.SkipAdd

/-! # Skip list: `Remove`, `Clear`, `Select`, `Rank` -/

set_option linter.unusedSectionVars false
set_option linter.unusedSimpArgs false

namespace Verif.Skip
open Verif Verif.Spec

variable {F : Type} [LinearOrder F]

theorem unlinkLoop_spec {s : SkipList F} {n M : Nat} {p : Nat → Nat} (hp : ∀ i < M, i < lv s (p i) ∧ p i ≠ n) :
    ∀ k ≤ M, ∃ s', Go.runOps (SkipList.unlinkAt n ((List.range M).map p)) s (List.range k) = .val s' ∧ Same s s' ∧
      (∀ a i, nx s' a i = if i < k ∧ i < lv s n ∧ a = p i then nx s n i else nx s a i) ∧
      ∀ a i, wd s' a i = if i < k ∧ a = p i then wd s a i + ((if i < lv s n then wd s n i else 0) - 1) else wd s a i := by
  intro k
  induction k with
  | zero => intro _; exact ⟨s, rfl, Same.refl s, fun _ _ => by simp, fun _ _ => by simp⟩
  | succ k ih =>
    intro hk
    obtain ⟨s1, r1, h1, n1, w1⟩ := ih (by omega)
    obtain ⟨hpk, hpn⟩ := hp k (by omega)
    have hpk1 : k < lv s1 (p k) := by rw [h1.lv]; exact hpk
    by_cases hl : k < lv s n
    · have hl1 : k < lv s1 n := by rw [h1.lv]; exact hl
      have e1 : s1.nextAt n k = .val (nx s n k) := by rw [nextAt_ok hl1, n1]; simp
      obtain ⟨s2, r2, h2, n2, w2⟩ := setNext_spec s1 hpk1 (nx s n k)
      have e2 : s2.widthAt n k = .val (wd s n k) := by rw [widthAt_ok (by rw [h2.lv]; exact hl1), w2, w1]; simp
      obtain ⟨s3, r3, h3, n3, w3⟩ := addWidth_spec s2 (a := p k) (i := k) (by rw [h2.lv]; exact hpk1) (wd s n k - 1)
      refine ⟨s3, ?_, (h1.trans h2).trans h3, ?_, ?_⟩
      · rw [List.range_succ, Go.runOps_append, r1]
        simp [Go.runOps, SkipList.unlinkAt, idx_map p (show k < M by omega), hl1, e1, r2, e2, r3]
      · intro a i
        rw [n3, n2, n1]
        by_cases c : i = k
        · subst c; simp [hl]
        · by_cases c2 : i < k
          · simp [c, c2, show i < k + 1 by omega]
          · simp [c, c2, show ¬ i < k + 1 by omega]
      · intro a i
        rw [w3, w2, w1]
        by_cases c : i = k
        · subst c; simp [hl]
        · by_cases c2 : i < k
          · simp [c, c2, show i < k + 1 by omega]
          · simp [c, c2, show ¬ i < k + 1 by omega]
    · have hl1 : ¬ k < lv s1 n := by rw [h1.lv]; exact hl
      obtain ⟨s3, r3, h3, n3, w3⟩ := addWidth_spec s1 hpk1 (-1)
      refine ⟨s3, ?_, h1.trans h3, ?_, ?_⟩
      · rw [List.range_succ, Go.runOps_append, r1]
        simp [Go.runOps, SkipList.unlinkAt, idx_map p (show k < M by omega), hl1, r3]
      · intro a i
        rw [n3, n1]
        by_cases c : i = k
        · subst c; simp [hl]
        · by_cases c2 : i < k
          · simp [c, c2, show i < k + 1 by omega]
          · simp [c, c2, show ¬ i < k + 1 by omega]
      · intro a i
        rw [w3, w1]
        by_cases c : i = k
        · subst c; simp [hl]
        · by_cases c2 : i < k
          · simp [c, c2, show i < k + 1 by omega]
          · simp [c, c2, show ¬ i < k + 1 by omega]

section
variable {s s' : SkipList F} {P Q : List Nat} {V : Nat → F} {x : F} {n : Nat} {p : Nat → Nat}

/-- The situation after unlinking `n`. -/
structure RCtx (s s' : SkipList F) (P Q : List Nat) (V : Nat → F) (x : F) (n : Nat) (p : Nat → Nat) : Prop where
  inv : Inv s (P ++ n :: Q) V
  lt : ∀ a ∈ P, V a < x
  ge : ∀ a ∈ n :: Q, x ≤ V a
  prev : ∀ i < s.maxLevel, IsPrev s P i (p i)
  lv : ∀ a, lv s' a = lv s a
  vl : ∀ a, vl s' a = vl s a
  max : s'.maxLevel = s.maxLevel
  alloc : s'.alloc = s.alloc
  length : s'.length = s.length - 1
  nx : ∀ a i, i < s.maxLevel → nx s' a i = if i < Skip.lv s n ∧ a = p i then Skip.nx s n i else Skip.nx s a i
  wd : ∀ a i, i < s.maxLevel →
    wd s' a i = if a = p i then Skip.wd s a i + ((if i < Skip.lv s n then Skip.wd s n i else 0) - 1) else Skip.wd s a i

namespace RCtx

theorem nodup (c : RCtx s s' P Q V x n p) : (0 :: P).Nodup ∧ (n :: Q).Nodup ∧ ∀ a ∈ 0 :: P, ∀ b ∈ n :: Q, a ≠ b := by
  have := c.inv.links.nodup
  rw [← List.cons_append] at this
  exact List.nodup_append.1 this

theorem iM (c : RCtx s s' P Q V x n p) {a i : Nat} (ha : a ∈ 0 :: (P ++ n :: Q)) (hi : i < Skip.lv s a) :
    i < s.maxLevel := by
  rcases List.mem_cons.1 ha with rfl | ha
  · rw [← c.inv.links.hl]; exact hi
  · have := (c.inv.links.lvl a ha).2; omega

theorem pQ (c : RCtx s s' P Q V x n p) {i : Nat} (hi : i < s.maxLevel) : ∀ a ∈ n :: Q, a ≠ p i :=
  fun a ha e => c.nodup.2.2 _ (c.prev i hi).mem a ha e.symm

theorem cumSame (c : RCtx s s' P Q V x n p) {i : Nat} (hi : i < s.maxLevel) {X : List Nat}
    (hX : ∀ a ∈ X, a ≠ p i) : Cum s' i X = Cum s i X := by
  apply Cum_congr
  intro b hb
  exact ⟨c.lv b, by rw [c.wd b i hi, if_neg (hX b hb)]⟩

theorem cumPN (c : RCtx s s' P Q V x n p) {i : Nat} (hi : i < s.maxLevel) {Z : List Nat} (hZ : ∀ a ∈ Z, a ∈ Q) :
    Cum s' i (0 :: P ++ Z) = Cum s i (0 :: P ++ n :: Z) - 1 := by
  have e1 : Cum s' i (0 :: P) = Cum s i (0 :: P) + ((if i < Skip.lv s n then Skip.wd s n i else 0) - 1) :=
    Cum_upd c.nodup.1 (c.prev i hi).mem (c.prev i hi).lt (fun b _ => c.lv b) (fun b _ => c.wd b i hi)
  rw [Cum_append, Cum_append, e1, Cum_cons (a := n), c.cumSame hi (fun a ha => c.pQ hi a (by simp [hZ a ha]))]
  ring

theorem links' (c : RCtx s s' P Q V x n p) : Links s' (P ++ Q) V := by
  have L := c.inv.links
  have hsub : ∀ a ∈ P ++ Q, a ∈ P ++ n :: Q := by intro a ha; simp at ha ⊢; tauto
  refine ⟨by rw [c.max]; exact L.pos, by rw [c.lv, c.max]; exact L.hl, ?_, ?_, ?_, ?_, ?_, ?_, by rw [c.vl]; exact L.head⟩
  · rw [← List.cons_append, List.nodup_append]
    exact ⟨c.nodup.1, (List.nodup_cons.1 c.nodup.2.1).2, fun a ha b hb => c.nodup.2.2 a ha b (by simp [hb])⟩
  · intro a ha; rw [c.alloc]; exact L.fresh a (by simp at ha ⊢; tauto)
  · intro a ha; rw [c.lv, c.max]; exact L.lvl a (hsub a ha)
  · intro a ha; rw [c.vl]; exact L.vals a (hsub a ha)
  · intro X a Y e i hi
    rw [c.lv] at hi
    simp only [c.lv]
    have hi' : i < s.maxLevel := by
      have ha : a ∈ 0 :: (P ++ Q) := by rw [e]; simp
      refine c.iM (a := a) ?_ hi
      simp at ha ⊢; tauto
    rw [← List.cons_append] at e
    rcases split_at e with ⟨Z, h1, h2⟩ | ⟨b, Z, h1, h2⟩
    · have haQ : a ∈ Q := by rw [h2]; simp
      rw [c.nx a i hi', if_neg (fun h => c.pQ hi' a (by simp [haQ]) h.2)]
      exact L.link (0 :: P ++ n :: Z) a Y (by rw [h2]; simp) i hi
    · simp at h2
      obtain ⟨rfl, h2⟩ := h2
      have hold := L.link X a (Z ++ n :: Q) (by rw [← List.cons_append, h1]; simp) i hi
      have hprev := prev_iff c.nodup.1 (c.prev i hi') h1 hi
      rw [c.nx a i hi', h2, List.find?_append]
      rw [List.find?_append] at hold
      rcases hz : Z.find? (fun b => decide (i < Skip.lv s b)) with _ | b
      · have hZ : ∀ b ∈ Z, Skip.lv s b ≤ i := by
          intro b hb; have := List.find?_eq_none.1 hz b hb; simpa using this
        rw [Option.none_or]
        by_cases hl : i < Skip.lv s n
        · rw [if_pos ⟨hl, hprev.2 hZ⟩]
          exact L.link (0 :: P) n Q rfl i hl
        · rw [if_neg (fun h => hl h.1), hold, hz, Option.none_or, List.find?_cons]
          simp [hl]
      · rw [hz] at hold
        rw [if_neg, hold]
        · rfl
        · rintro ⟨-, h⟩
          have := hprev.1 h b (List.mem_of_find?_eq_some hz)
          have h3 := List.find?_some hz
          simp at h3; omega
  · have hs := L.sorted
    rw [List.map_append, List.map_cons] at hs
    rw [List.map_append]
    exact hs.sublist (by simp)

theorem inv' (c : RCtx s s' P Q V x n p) : Inv s' (P ++ Q) V := by
  have L := c.inv.links
  refine ⟨c.links', ?_, ?_, ?_, ?_, ?_⟩
  · rw [c.length, c.inv.len]; simp; ring
  · intro a ha
    have ha' : a ∈ 0 :: (P ++ n :: Q) := by simp at ha ⊢; tauto
    have h0 : 0 < Skip.lv s n := (L.lvl n (by simp)).1
    rw [c.wd a 0 L.pos, if_pos h0, c.inv.w0 a ha', c.inv.w0 n (by simp)]; simp
  · intro i hi
    rw [c.max] at hi
    rw [← List.cons_append, c.cumPN hi (fun a ha => ha), List.cons_append, c.inv.tot i hi]; simp; ring
  · intro X Y e i hi hY
    rw [c.max] at hi
    simp only [c.lv] at hY
    rw [← List.cons_append] at e
    rcases split_at e with ⟨Z, h1, h2⟩ | ⟨a, Z, h1, h2⟩
    · subst h1
      have hZ : ∀ a ∈ Z, a ∈ Q := fun a ha => by rw [h2]; simp [ha]
      rw [c.cumPN (show i < s.maxLevel by omega) hZ, c.cumPN hi hZ]
      have m := c.inv.mono (0 :: P ++ n :: Z) Y (by rw [h2]; simp) i hi hY
      omega
    · have ha := hY a (by rw [h2]; rfl)
      have hne : ∀ j, j ≤ i + 1 → ∀ b ∈ X, b ≠ p j := by
        rintro j hj b hb rfl
        exact (c.prev j (by omega)).not_mem c.nodup.1 h1 (by omega) hb
      rw [c.cumSame (show i < s.maxLevel by omega) (hne i (by omega)), c.cumSame hi (hne (i + 1) le_rfl)]
      refine c.inv.mono X (a :: Z ++ n :: Q) (by rw [← List.cons_append, h1]; simp) i hi ?_
      intro b hb; simp at hb; rw [← hb]; exact ha
  · intro X a Y b Z e i ha hb hY hV
    simp only [c.lv] at ha hb hY
    rcases split_at e with ⟨W, h1, h2⟩ | ⟨a', W, h1, h2⟩
    · have haQ : a ∈ Q := by rw [h2]; simp
      have hi' := c.iM (a := a) (by simp [haQ]) ha
      rw [c.wd a i hi', if_neg (c.pQ hi' a (by simp [haQ]))]
      exact c.inv.dup (P ++ n :: W) a Y b Z (by rw [h2]; simp) i ha hb hY hV
    · simp at h2
      obtain ⟨rfl, h2⟩ := h2
      have haP : a ∈ P := by rw [h1]; simp
      have hi' := c.iM (a := a) (by simp [haP]) ha
      rcases split_at h2.symm with ⟨U, k1, k2⟩ | ⟨b', U, k1, k2⟩
      · have hbQ : b ∈ Q := by rw [k2]; simp
        have h1 := c.lt a haP
        have h2 := c.ge b (by simp [hbQ])
        rw [hV] at h1; exact absurd h1 (not_lt.2 h2)
      · simp at k2
        obtain ⟨rfl, k2⟩ := k2
        have hap : a ≠ p i := by
          intro hc
          have := (prev_iff c.nodup.1 (c.prev i hi') (X := 0 :: X) (Y := W) (by rw [h1]; rfl) ha).1 hc b (by rw [k1]; simp)
          omega
        rw [c.wd a i hi', if_neg hap]
        exact c.inv.dup X a Y b (U ++ n :: Q) (by rw [h1, k1]; simp) i ha hb hY hV

theorem exact' (c : RCtx s s' P Q V x n p) (hE : Exact s (P ++ n :: Q)) : Exact s' (P ++ Q) := by
  intro X Y e i hi hY
  rw [c.max] at hi
  simp only [c.lv] at hY
  rw [← List.cons_append] at e
  rcases split_at e with ⟨Z, h1, h2⟩ | ⟨a, Z, h1, h2⟩
  · subst h1
    rw [c.cumPN hi (fun a ha => by rw [h2]; simp [ha]), hE (0 :: P ++ n :: Z) Y (by rw [h2]; simp) i hi hY]
    simp; ring
  · have ha := hY a (by rw [h2]; rfl)
    rw [c.cumSame hi]
    · refine hE X (a :: Z ++ n :: Q) (by rw [← List.cons_append, h1]; simp) i hi ?_
      intro b hb; simp at hb; rw [← hb]; exact ha
    · rintro b hb rfl
      exact (c.prev i hi).not_mem c.nodup.1 h1 ha hb

end RCtx
end

/-- `Remove` keeps the invariant and the exactness of the widths. -/
theorem Inv.remove {s : SkipList F} {A : List Nat} {V : Nat → F} (h : Inv s A V) (x : F) :
    ∃ s' A', s.remove x = .val s' ∧ Inv s' A' V ∧ ((A'.map V : List F) : Multiset F) = ((A.map V : List F) : Multiset F).erase x ∧
      (Exact s A → Exact s' A') ∧ s'.maxLevel = s.maxLevel ∧ s'.draws = s.draws ∧ s'.drawn = s.drawn ∧ (∀ a, lv s' a = lv s a) ∧
      s'.alloc = s.alloc ∧ A' = (A.takeWhile fun a => decide (V a < x)) ++
        match A.dropWhile fun a => decide (V a < x) with | n :: Q => if V n = x then Q else n :: Q | [] => [] := by
  have hs := h.links.split_at x
  generalize A.takeWhile (fun a => decide (V a < x)) = P at hs ⊢
  generalize A.dropWhile (fun a => decide (V a < x)) = Q at hs ⊢
  obtain ⟨p, hg, hp⟩ := getPrevs_spec h.links hs
  have hpos := h.links.pos
  obtain ⟨X', Y', e', hi', hY'⟩ := hp 0 hpos
  have hY0 : Y' = [] := by
    cases Y' with
    | nil => rfl
    | cons y Y' =>
      have h1 := hY' y (by simp)
      have : y ∈ P := by
        cases X' with
        | nil => simp at e'; rw [e'.2]; simp
        | cons z X' => simp at e'; rw [e'.2]; simp
      have h2 := (h.links.lvl y (by rw [hs.eq]; simp [this])).1
      omega
  subst hY0
  have hnx : s.nextAt (p 0) 0 = .val (Q.head?) := by
    rw [nextAt_ok hi', h.links.link X' (p 0) Q (by rw [hs.eq, ← List.cons_append, e']; simp) 0 hi']
    cases hq : Q with
    | nil => rfl
    | cons q Q' =>
      have := (h.links.lvl q (by rw [hs.eq, hq]; simp)).1
      simp [this]
  have hidx : SkipList.idx ((List.range s.maxLevel).map p) 0 = .val (p 0) := idx_map p hpos
  have hAm : (A.map V) = P.map V ++ Q.map V := by rw [hs.eq]; simp
  have absent : x ∉ A.map V → s.remove x = .val s → ∀ B, A = B →
      ∃ s' A', s.remove x = .val s' ∧ Inv s' A' V ∧ ((A'.map V : List F) : Multiset F) = ((A.map V : List F) : Multiset F).erase x ∧
      (Exact s A → Exact s' A') ∧ s'.maxLevel = s.maxLevel ∧ s'.draws = s.draws ∧ s'.drawn = s.drawn ∧ (∀ a, lv s' a = lv s a) ∧
      s'.alloc = s.alloc ∧ A' = B := by
    intro hx hr B hB
    refine ⟨s, A, hr, h, ?_, id, rfl, rfl, rfl, fun _ => rfl, rfl, hB⟩
    rw [Multiset.erase_of_notMem (by simpa using hx)]
  cases hq : Q with
  | nil =>
    subst hq
    refine absent ?_ ?_ _ hs.eq
    · rw [hAm]
      intro c; simp at c
      obtain ⟨a, ha, e⟩ := c
      have := hs.lt a ha
      rw [e] at this; exact absurd this (lt_irrefl _)
    · simp [SkipList.remove, hg, hidx, hnx]
  | cons n Q' =>
    subst hq
    have hvn := h.links.vals n (by rw [hs.eq]; simp)
    have hveq : s.valEq n x = decide (V n = x) := by
      simp only [vl] at hvn; simp [SkipList.valEq, hvn]
    by_cases hx : V n = x
    · have hnd := h.links.nodup
      rw [hs.eq, ← List.cons_append] at hnd
      have hnd' := List.nodup_append.1 hnd
      obtain ⟨s1, r1, S1, n1, w1⟩ := unlinkLoop_spec (s := s) (n := n) (M := s.maxLevel) (p := p)
        (fun i hi => ⟨(hp i hi).lt, fun c => hnd'.2.2 _ (hp i hi).mem n (by simp) c⟩) s.maxLevel le_rfl
      have hc : RCtx s { s1 with length := s1.length - 1 } P Q' V x n p := by
        refine ⟨by rw [← hs.eq]; exact h, hs.lt, hs.ge, hp, S1.lv, S1.vl, S1.max, S1.alloc, ?_, ?_, ?_⟩
        · show s1.length - 1 = _; rw [S1.length]
        · intro a i hi; show nx s1 a i = _; rw [n1]; simp [hi]
        · intro a i hi; show wd s1 a i = _; rw [w1]; simp [hi]
      simp only [if_pos hx]
      refine ⟨_, P ++ Q', ?_, hc.inv', ?_, ?_, S1.max, S1.draws, S1.drawn, S1.lv, S1.alloc, rfl⟩
      · simp [SkipList.remove, hg, hidx, hnx, hveq, hx, r1]
      · rw [hAm, List.map_cons, hx, List.map_append]
        have : ((P.map V ++ x :: Q'.map V : List F) : Multiset F) = x ::ₘ ((P.map V ++ Q'.map V : List F) : Multiset F) := by
          rw [Multiset.cons_coe, Multiset.coe_eq_coe]; exact List.perm_middle
        rw [this, Multiset.erase_cons_head]
      · intro hE; rw [hs.eq] at hE; exact hc.exact' hE
    · simp only [if_neg hx]
      refine absent ?_ ?_ _ hs.eq
      · have hso := h.links.sorted
        rw [hAm, List.map_cons] at hso
        have hso := (sorted_mid.1 hso).2.2.2
        have hlt : x < V n := lt_of_le_of_ne (hs.ge n (by simp)) (Ne.symm hx)
        rw [hAm]
        intro c; simp at c
        rcases c with ⟨a, ha, e⟩ | c | ⟨a, ha, e⟩
        · have := hs.lt a ha
          rw [e] at this; exact absurd this (lt_irrefl _)
        · exact hx c.symm
        · have := hso _ (List.mem_map_of_mem ha)
          rw [e] at this; exact absurd hlt (not_lt.2 this)
      · simp [SkipList.remove, hg, hidx, hnx, hveq, hx]

theorem inv_of_empty {s : SkipList F} {V : Nat → F} (hp : 0 < s.maxLevel) (hl : lv s 0 = s.maxLevel) (ha : 0 < s.alloc)
    (hn : ∀ i, nx s 0 i = none) (hw : ∀ i, wd s 0 i = 1) (hlen : s.length = 0) (hv : vl s 0 = none) : Inv s [] V ∧ Exact s [] := by
  have hE : Exact s [] := by
    intro X Y e i hi hY
    cases X with
    | nil => rfl
    | cons a X =>
      simp at e
      obtain ⟨rfl, rfl, rfl⟩ := e
      rw [Cum_cons, if_pos (by omega), hw]; rfl
  refine ⟨⟨⟨hp, hl, by simp, by simpa using ha, by simp, by simp, ?_, by simp, hv⟩, by simp [hlen], by simp [hw], ?_, ?_, ?_⟩, hE⟩
  · intro X a Y e i hi
    cases X with
    | nil => simp at e; obtain ⟨rfl, rfl⟩ := e; simp [hn]
    | cons z X => simp at e
  · intro i hi; rw [Cum_cons, if_pos (by omega), hw]; rfl
  · intro X Y e i hi hY
    rw [hE X Y e i (by omega) (fun a ha => by have := hY a ha; omega), hE X Y e (i + 1) hi hY]
  · intro X a Y b Z e; simp at e

theorem Inv.new (M : Nat) (hM : 0 < M) (draws : Nat → Nat → Bool) (V : Nat → F) :
    Inv (new M draws : SkipList F) [] V ∧ Exact (new M draws : SkipList F) [] :=
  inv_of_empty hM rfl Nat.one_pos (fun _ => rfl) (fun _ => rfl) rfl rfl

theorem Inv.clear {s : SkipList F} {A : List Nat} {V : Nat → F} (h : Inv s A V) : Inv s.clear [] V ∧ Exact s.clear [] := by
  refine inv_of_empty h.links.pos ?_ ?_ ?_ ?_ rfl (by simpa [SkipList.clear, vl, SkipList.upd, headNode] using h.links.head)
  · simp [SkipList.clear, lv, SkipList.upd]
  · exact h.links.fresh 0 (by simp)
  · intro i; simp [SkipList.clear, nx, SkipList.upd]
  · intro i; simp [SkipList.clear, wd, SkipList.upd]

/-! ### Queries -/

theorem selWalk_spec {s : SkipList F} {A : List Nat} {V : Nat → F} (h : Inv s A V) {k : Int} (hk : k ≤ A.length) {i : Nat}
    (hi : i < s.maxLevel) :
    ∀ (f : Nat) (X : List Nat) (a : Nat) (Y : List Nat) (pos : Int), 0 :: A = X ++ a :: Y → i < lv s a → Y.length < f →
      Cum s i X ≤ pos → (a = 0 → pos = 0) →
      ∃ X' a' Y' pos', s.selWalk k i f (some a) pos = .val (some a', pos') ∧ 0 :: A = X' ++ a' :: Y' ∧ i < lv s a' ∧
        Cum s i X' ≤ pos' ∧ (a' = 0 → pos' = 0) ∧ k < pos' + wd s a' i ∧
        (Cum s i X = pos → pos ≤ k → Cum s i X' = pos' ∧ pos' ≤ k) := by
  intro f
  induction f with
  | zero => intro X a Y pos _ _ hf; omega
  | succ f ih =>
    intro X a Y pos e ha hf hc h0
    by_cases hle : pos + wd s a i ≤ k
    · have hn := h.links.link X a Y e i ha
      rcases hy : Y.find? (fun b => decide (i < lv s b)) with _ | b
      · -- no successor: the total would be exceeded
        exfalso
        have hY : ∀ b ∈ Y, lv s b ≤ i := by
          intro b hb; have := List.find?_eq_none.1 hy b hb; simpa using this
        have ht := h.tot i hi
        rw [e, Cum_append, Cum_cons, if_pos ha, Cum_low hY] at ht
        omega
      · obtain ⟨Y1, Y2, e1, hb, hY1⟩ := find_some hy
        have hcum : Cum s i (X ++ a :: Y1) = Cum s i X + wd s a i := by
          rw [Cum_append, Cum_cons, if_pos ha, Cum_low hY1]; ring
        have hb0 : b ≠ 0 := by
          rintro rfl
          have := h.links.nodup
          rw [e, e1] at this
          cases X with
          | nil =>
            simp at e
            rw [← e.1] at this
            simp at this
          | cons z X =>
            simp at e
            rw [← e.1] at this
            simp at this
        obtain ⟨X', a', Y', pos', r, g1, g2, g3, g4, g5, g6⟩ := ih (X ++ a :: Y1) b Y2 (pos + wd s a i)
          (by rw [e, e1]; simp) hb (by rw [e1] at hf; simp at hf; omega) (by rw [hcum]; omega) (fun c => absurd c hb0)
        refine ⟨X', a', Y', pos', ?_, g1, g2, g3, g4, g5, fun q1 q2 => g6 (by rw [hcum, q1]) hle⟩
        simp only [SkipList.selWalk, widthAt_ok ha, nextAt_ok ha, Go.val_bind, hle, if_true, hn, hy, r]
    · exact ⟨X, a, Y, pos, by simp [SkipList.selWalk, widthAt_ok ha, hle], e, ha, hc, h0, by omega, fun q1 q2 => ⟨q1, q2⟩⟩

theorem selDown_spec {s : SkipList F} {A : List Nat} {V : Nat → F} (h : Inv s A V) {k : Int} (hk1 : 1 ≤ k) (hk : k ≤ A.length) :
    ∀ (i : Nat), i < s.maxLevel → ∀ (X : List Nat) (a : Nat) (Y : List Nat) (pos : Int), 0 :: A = X ++ a :: Y → i < lv s a →
      Cum s i X ≤ pos → (a = 0 → pos = 0) →
      ∃ X' a' Y', s.selDown k (i + 1) (some a) pos = .val (some a') ∧ 0 :: A = X' ++ a' :: Y' ∧ a' ≠ 0 ∧
        (Exact s A → (X.length : Int) = pos → pos ≤ k → (X'.length : Int) = k) := by
  have hlen := h.links.length_lt
  have w0 := h.w0
  intro i
  induction i with
  | zero =>
    intro hi X a Y pos e ha hc h0
    have hY : Y.length < s.alloc + 1 := by
      have := congrArg List.length e; simp at this; omega
    obtain ⟨X', a', Y', pos', r, g1, g2, g3, g4, g5, g6⟩ := selWalk_spec h hk hi (s.alloc + 1) X a Y pos e ha hY hc h0
    have hw : wd s a' 0 = 1 := w0 a' (by rw [g1]; simp)
    refine ⟨X', a', Y', by simp [SkipList.selDown, r], g1, ?_, ?_⟩
    · intro c; have := g4 c; omega
    · intro hE q1 q2
      have hX := hE X (a :: Y) e 0 hi (by simpa using ha)
      have hX' := hE X' (a' :: Y') g1 0 hi (by simpa using g2)
      have := g6 (by rw [hX, q1]) q2
      omega
  | succ i ih =>
    intro hi X a Y pos e ha hc h0
    have hY : Y.length < s.alloc + 1 := by
      have := congrArg List.length e; simp at this; omega
    obtain ⟨X', a', Y', pos', r, g1, g2, g3, g4, g5, g6⟩ := selWalk_spec h hk hi (s.alloc + 1) X a Y pos e ha hY hc h0
    have m := h.mono X' (a' :: Y') g1 i hi (by simpa using g2)
    obtain ⟨X2, a2, Y2, r2, q1, q2, q3⟩ := ih (by omega) X' a' Y' pos' g1 (by omega) (by omega) g4
    refine ⟨X2, a2, Y2, ?_, q1, q2, ?_⟩
    · rw [SkipList.selDown, r]; exact r2
    · intro hE p1 p2
      have hX := hE X (a :: Y) e (i + 1) hi (by simpa using ha)
      have hX' := hE X' (a' :: Y') g1 (i + 1) hi (by simpa using g2)
      have := g6 (by rw [hX, p1]) p2
      exact q3 hE (by omega) this.2

/-- `Select` never panics; it returns a stored value exactly for in-range indices; and the k-th smallest if widths are exact. -/
theorem Inv.select {s : SkipList F} {A : List Nat} {V : Nat → F} (h : Inv s A V) (k : Int) :
    ∃ r, s.select k = .val r ∧ ((k < 0 ∨ (A.length : Int) ≤ k) → r = none) ∧
      (0 ≤ k → k < A.length → ∃ a ∈ A, r = some (V a)) ∧ (Exact s A → r = kth (A.map V : List F) k) := by
  by_cases hr : k < 0 ∨ k ≥ s.length
  · refine ⟨none, by rw [SkipList.select, if_pos hr], fun _ => rfl, ?_, ?_⟩
    · intro h1 h2; rw [h.len] at hr; omega
    · intro _; rw [kth_out]; rw [h.len] at hr; simpa using hr
  · have hr' : 0 ≤ k ∧ k < A.length := by rw [h.len] at hr; omega
    have hpos := h.links.pos
    obtain ⟨M, hM⟩ : ∃ M, s.maxLevel = M + 1 := ⟨s.maxLevel - 1, by omega⟩
    obtain ⟨X', a', Y', r, e, hne, hex⟩ := selDown_spec h (k := k + 1) (by omega) (by omega) M (by omega) [] 0 A 0 rfl
      (by rw [h.links.hl]; omega) le_rfl (fun _ => rfl)
    have haA : a' ∈ A := by
      have : a' ∈ 0 :: A := by rw [e]; simp
      rcases List.mem_cons.1 this with c | c
      · exact absurd c hne
      · exact c
    refine ⟨some (V a'), ?_, fun c => by omega, fun _ _ => ⟨a', haA, rfl⟩, ?_⟩
    · rw [SkipList.select, if_neg hr, hM, r]
      exact congrArg Go.val (h.links.vals a' haA)
    · intro hE
      have hl := hex hE (by simp) (by omega)
      rw [kth_coe h.links.sorted, if_pos hr'.1]
      cases X' with
      | nil => simp at hl; omega
      | cons z X' =>
        simp at e hl
        rw [e.2]
        have : k.toNat = (X'.map V).length := by simp; omega
        rw [List.map_append, List.map_cons, List.getElem?_append_right (by omega), this]
        simp

theorem rankWalk_spec {s : SkipList F} {A : List Nat} {V : Nat → F} (h : Links s A V) {P Q : List Nat} {x : F}
    (hs : Split V A P Q x) {i : Nat} :
    ∀ (f : Nat) (X : List Nat) (a : Nat) (Y : List Nat) (r : Int), 0 :: P = X ++ a :: Y → i < lv s a → Y.length < f →
      ∃ X' p Y', s.rankWalk x i f a r = .val (p, r + (Cum s i X' - Cum s i X)) ∧ 0 :: P = X' ++ p :: Y' ∧ i < lv s p ∧
        (∀ b ∈ Y', lv s b ≤ i) := by
  intro f
  induction f with
  | zero => intro X a Y r _ _ hf; omega
  | succ f ih =>
    intro X a Y r e hi hf
    have hn := h.link X a (Y ++ Q) (by rw [hs.eq, ← List.cons_append, e]; simp) i hi
    have hnx : s.nextAt a i = .val (nx s a i) := nextAt_ok hi
    rw [hn, List.find?_append] at hnx
    rcases hy : Y.find? (fun b => decide (i < lv s b)) with _ | b
    · have hY : ∀ b ∈ Y, lv s b ≤ i := by
        intro b hb; have := List.find?_eq_none.1 hy b hb; simpa using this
      refine ⟨X, a, Y, ?_, e, hi, hY⟩
      rw [hy, Option.none_or] at hnx
      rcases hq : Q.find? (fun b => decide (i < lv s b)) with _ | c
      · rw [hq] at hnx; simp [SkipList.rankWalk, hnx]
      · rw [hq] at hnx
        have hc : c ∈ Q := List.mem_of_find?_eq_some hq
        simp [SkipList.rankWalk, hnx, (h.mem_split hs).2 hc]
    · obtain ⟨Y1, Y2, e1, hb, hY1⟩ := find_some hy
      rw [hy, Option.some_or] at hnx
      have hbP : b ∈ P := by
        have hb0 : b ∈ Y := by rw [e1]; simp
        cases X with
        | nil => simp at e; rw [e.2]; exact hb0
        | cons z X => simp at e; rw [e.2]; simp [hb0]
      obtain ⟨X', p, Y', r1, r2⟩ := ih (X ++ a :: Y1) b Y2 (r + wd s a i) (by rw [e, e1]; simp) hb
        (by rw [e1] at hf; simp at hf; omega)
      refine ⟨X', p, Y', ?_, r2⟩
      have hcum : Cum s i (X ++ a :: Y1) = Cum s i X + wd s a i := by
        rw [Cum_append, Cum_cons, if_pos hi, Cum_low hY1]; ring
      simp only [SkipList.rankWalk, hnx, Go.val_bind, (h.mem_split hs).1 hbP, if_true, widthAt_ok hi, r1, hcum]
      congr 2; ring

theorem rankDown_spec {s : SkipList F} {A : List Nat} {V : Nat → F} (h : Links s A V) {P Q : List Nat} {x : F}
    (hs : Split V A P Q x) :
    ∀ (i : Nat), i ≤ s.maxLevel → ∀ (X : List Nat) (a : Nat) (Y : List Nat) (r : Int), 0 :: P = X ++ a :: Y → i ≤ lv s a →
      (∀ b ∈ Y, lv s b ≤ i) →
      ∃ r', s.rankDown x i a r = .val r' ∧ (Exact s A → r = X.length → r' = P.length) := by
  have hlen : P.length + 1 ≤ s.alloc := by
    have := h.length_lt; rw [hs.eq] at this; simp at this; omega
  intro i
  induction i with
  | zero =>
    intro _ X a Y r e _ hY
    refine ⟨r, rfl, ?_⟩
    intro _ hr
    have : Y = [] := by
      cases Y with
      | nil => rfl
      | cons y Y =>
        have h1 := hY y (by simp)
        have : y ∈ P := by
          cases X with
          | nil => simp at e; rw [e.2]; simp
          | cons z X => simp at e; rw [e.2]; simp
        have h2 := (h.lvl y (by rw [hs.eq]; simp [this])).1
        omega
    subst this
    have := congrArg List.length e
    simp at this; omega
  | succ i ih =>
    intro hi X a Y r e ha hYl
    have hY : Y.length < s.alloc + 1 := by
      have := congrArg List.length e; simp at this; omega
    obtain ⟨X', p, Y', w, e', hp, hY'⟩ := rankWalk_spec (i := i) h hs (s.alloc + 1) X a Y r e (by omega) hY
    obtain ⟨r', q, hq⟩ := ih (by omega) X' p Y' _ e' hp.le hY'
    refine ⟨r', ?_, ?_⟩
    · rw [SkipList.rankDown, w]; exact q
    · intro hE hr
      refine hq hE ?_
      rw [hr, hE X (a :: Y ++ Q) (by rw [hs.eq, ← List.cons_append, e]; simp) i (by omega) (by intro b hb; simp at hb; subst hb; omega),
        hE X' (p :: Y' ++ Q) (by rw [hs.eq, ← List.cons_append, e']; simp) i (by omega) (by intro b hb; simp at hb; subst hb; omega)]
      ring

theorem Inv.rank {s : SkipList F} {A : List Nat} {V : Nat → F} (h : Inv s A V) (x : F) :
    ∃ r, s.rank x = .val r ∧ (Exact s A → r = rankOf (A.map V : List F) x) := by
  obtain ⟨P, Q, hs⟩ := h.links.split x
  have hPl : ∀ b ∈ P, lv s b ≤ s.maxLevel := fun b hb => (h.links.lvl b (by rw [hs.eq]; simp [hb])).2
  obtain ⟨r, e, hr⟩ := rankDown_spec h.links hs s.maxLevel le_rfl [] 0 P 0 rfl (by rw [h.links.hl]) hPl
  refine ⟨r, e, ?_⟩
  intro hE
  rw [hr hE (by simp), rankOf_coe, hs.eq, List.map_append, List.countP_append, List.countP_map, List.countP_map,
    List.countP_eq_length.2, List.countP_eq_zero.2]
  · simp
  · intro a ha; simpa using hs.ge a ha
  · intro a ha; simpa using hs.lt a ha

end Verif.Skip
