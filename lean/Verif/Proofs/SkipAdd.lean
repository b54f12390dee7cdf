import Verif.Proofs.SkipList

/-! # Skip list: `Add` -/

set_option linter.unusedSectionVars false
set_option linter.unusedSimpArgs false

namespace Verif.Skip
open Verif Verif.Spec

variable {F : Type} [LinearOrder F]

theorem add_added {s : SkipList F} {A P Q : List Nat} {V : Nat → F} {x : F} (h : Links s A V) (hs : Split V A P Q x) :
    ∃ s' p d, s.add x = .val s' ∧ (∀ i < s.maxLevel, IsPrev s P i (p i)) ∧
      Added s s' (Function.update V s.alloc x) P Q x s.alloc p d ∧
      Links s' (P ++ s.alloc :: Q) (Function.update V s.alloc x) ∧ s'.draws = s.draws ∧ s'.drawn = s.drawn + 1 := by
  obtain ⟨p, hg, hp⟩ := getPrevs_spec h hs
  set n := s.alloc with hn
  set level := s.randLevel with hlevel
  have hlb : 1 ≤ level ∧ level ≤ s.maxLevel := levelLoop_bounds s.maxLevel _ s.maxLevel 1 h.pos
  have hpn : ∀ i < s.maxLevel, p i ≠ n := by
    intro i hi
    have h1 := (hp i hi).mem
    have := h.fresh (p i) (by rw [hs.eq]; simp at h1 ⊢; tauto)
    omega
  let s0 : SkipList F := { s.upd n ⟨level, fun _ => none, fun _ => 0, some x⟩ with alloc := n + 1, drawn := s.drawn + 1 }
  have l0 : ∀ a, lv s0 a = if a = n then level else lv s a := by
    intro a; simp only [s0, lv, SkipList.upd, Function.update_apply]; split_ifs <;> rfl
  have v0 : ∀ a, vl s0 a = if a = n then some x else vl s a := by
    intro a; simp only [s0, vl, SkipList.upd, Function.update_apply]; split_ifs <;> rfl
  have n0 : ∀ a i, nx s0 a i = if a = n then none else nx s a i := by
    intro a i; simp only [s0, nx, SkipList.upd, Function.update_apply]; split_ifs <;> rfl
  have w0 : ∀ a i, wd s0 a i = if a = n then 0 else wd s a i := by
    intro a i; simp only [s0, wd, SkipList.upd, Function.update_apply]; split_ifs <;> rfl
  have hp0 : ∀ i < s.maxLevel, i < lv s0 (p i) := by
    intro i hi; rw [l0, if_neg (hpn i hi)]; exact (hp i hi).lt
  -- link loop
  obtain ⟨s1, r1, S1, w1, n1⟩ := linkLoop_spec (s := s0) (n := n) (M := s.maxLevel) (level := level) (p := p) hlb.2
    (by rw [l0, if_pos rfl]) (fun i hi => ⟨hp0 i (by omega), hpn i (by omega)⟩) level le_rfl
  have lv1 : ∀ a, lv s1 a = if a = n then level else lv s a := fun a => by rw [S1.lv, l0]
  have L1 : Links s1 (P ++ n :: Q) (Function.update V n x) := by
    refine h.insert hs hp hn ?_ ?_ ?_ ?_ ?_ ?_
    · intro a ha; rw [lv1, if_neg ha]
    · rw [lv1, if_pos rfl]; omega
    · intro a; rw [S1.vl, v0]
    · rw [S1.max]; rfl
    · rw [S1.alloc]
    · intro a i
      rw [n1, lv1, if_pos rfl]
      by_cases c : i < level
      · rw [if_pos c, if_pos c, n0, if_neg (hpn i (by omega)), n0]
        by_cases ca : a = n
        · simp [ca]
        · simp [ca]
      · rw [if_neg c, if_neg c, n0]
  -- node.width[0] = 1
  obtain ⟨s2, r2, S2, n2, w2⟩ := addWidth_spec s1 (a := n) (i := 0) (by rw [lv1, if_pos rfl]; omega) 1
  -- bump loop
  have hm2 : s2.maxLevel = s.maxLevel := by rw [S2.max, S1.max]; rfl
  obtain ⟨s3, r3, S3, n3, w3⟩ := bumpLoop_spec (s := s2) (M := s.maxLevel) (p := p)
    (fun i hi => by rw [S2.lv, S1.lv]; exact hp0 i hi) s.maxLevel le_rfl
  have S13 := S2.trans S3
  have L3 := L1.congr S13 (fun a i => by rw [n3, n2])
  -- width loop
  have w3n : ∀ i, 1 ≤ i → wd s3 n i = 0 := by
    intro i hi
    have hc : ¬ (1 ≤ i ∧ i < s.maxLevel ∧ n = p i) := by
      rintro ⟨-, c1, c2⟩; exact hpn i c1 c2.symm
    rw [w3, w2, w1, w0, if_neg hc]
    simp [show i ≠ 0 by omega]
  obtain ⟨s4, c, r4, S4, n4, w4, st⟩ := widthLoop_spec (M := s.maxLevel) (level := level) (p := p) L3 hlb.2
    (by rw [S13.lv, lv1, if_pos rfl])
    (fun i hi => ⟨by rw [S13.lv, S1.lv]; exact hp0 i (by omega), hpn i (by omega)⟩) w3n level le_rfl
  have S14 := S13.trans S4
  have lv4 : ∀ a, lv s4 a = if a = n then level else lv s a := fun a => by rw [S14.lv, lv1]
  refine ⟨{ s4 with length := s4.length + 1 }, p, fun i => if i = 0 then 1 else if i < level then c i else 0, ?_, hp,
    ?_, ?_, ?_, ?_⟩
  · simp only [SkipList.add, hg, Go.val_bind]
    change (Go.runOps (SkipList.linkAt n _) s0 (List.range level) >>= _) = _
    rw [r1]
    change (s1.addWidth n 0 1 >>= _) = _
    rw [r2]
    change (Go.runOps (SkipList.bumpAt _) s2 (SkipList.from1 s2.maxLevel) >>= _) = _
    rw [hm2, r3]
    change (Go.runOps (SkipList.widthAtLevel n _) s3 (SkipList.from1 level) >>= _) = _
    rw [r4]; rfl
  · refine ⟨?_, ?_, ?_, ?_, ?_, ?_, ?_, ?_, rfl, ?_, ?_⟩
    · intro a ha; show lv s4 a = _; rw [lv4, if_neg ha]
    · show 0 < lv s4 n ∧ lv s4 n ≤ _; rw [lv4, if_pos rfl]; omega
    · intro a; show vl s4 a = _; rw [S14.vl, S1.vl, v0]
    · show s4.maxLevel = _; rw [S14.max, S1.max]; rfl
    · show s4.alloc = _; rw [S14.alloc, S1.alloc]
    · show s4.length + 1 = _; rw [S14.length, S1.length]; rfl
    · intro a i
      show nx s4 a i = if i < lv s4 n then _ else _
      rw [n4, n3, n2, n1, lv4, if_pos rfl]
      by_cases ci : i < level
      · rw [if_pos ci, if_pos ci, n0, if_neg (hpn i (by omega)), n0]
        by_cases ca : a = n
        · simp [ca]
        · simp [ca]
      · rw [if_neg ci, if_neg ci, n0]
    · intro a i hi
      show wd s4 a i = _
      rw [w4, w3, w2, w1, w0]
      have := hpn i hi
      by_cases ca : a = n
      · have hne : n ≠ p i := Ne.symm this
        simp only [ca, hne, true_and, if_true, and_false, if_false]
        by_cases c0 : i = 0
        · simp [c0]
        · by_cases cl : i < level
          · simp [c0, cl, show 1 ≤ i by omega]
          · simp [c0, cl]
      · by_cases cp : a = p i
        · simp only [cp, this, if_false, if_true, and_true, false_and]
          by_cases c0 : i = 0
          · subst c0; simp
          · by_cases cl : i < level
            · simp [c0, cl, show 1 ≤ i by omega, hi]; ring
            · simp [c0, cl, show 1 ≤ i by omega, hi]
        · simp [ca, cp]
    · intro i hi
      have hi : lv s4 n ≤ i := hi
      rw [lv4, if_pos rfl] at hi
      simp [show ¬ i < level by omega, show i ≠ 0 by omega]
    · intro i h1 h2
      have h2 : i < lv s4 n := h2
      rw [lv4, if_pos rfl] at h2
      have := st i h1 h2
      simp only [show i ≠ 0 by omega, h2, if_true, if_false]
      simp only [← S4.lv] at this
      exact this
  · have L4 := L3.congr S4 n4
    exact ⟨L4.pos, L4.hl, L4.nodup, L4.fresh, L4.lvl, L4.vals, L4.link, L4.sorted, L4.head⟩
  · show s4.draws = _; rw [S14.draws, S1.draws]; rfl
  · show s4.drawn = _; rw [S14.drawn, S1.drawn]

section
variable {s s' : SkipList F} {A P Q : List Nat} {V V' : Nat → F} {x : F} {n : Nat} {p : Nat → Nat} {d : Nat → Int}

/-- Facts about the position of the new node, collected. -/
structure Ctx (s s' : SkipList F) (A P Q : List Nat) (V : Nat → F) (x : F) (n : Nat) (p : Nat → Nat) (d : Nat → Int) :
    Prop where
  inv : Inv s A V
  split : Split V A P Q x
  prev : ∀ i < s.maxLevel, IsPrev s P i (p i)
  hn : n = s.alloc
  added : Added s s' (Function.update V n x) P Q x n p d
  links' : Links s' (P ++ n :: Q) (Function.update V n x)

namespace Ctx

theorem nA (c : Ctx s s' A P Q V x n p d) : ∀ a ∈ 0 :: A, a ≠ n := by
  intro a ha; have := c.inv.links.fresh a ha; have := c.hn; omega

theorem nP (c : Ctx s s' A P Q V x n p d) : ∀ a ∈ 0 :: P, a ≠ n :=
  fun a ha => c.nA a (by rw [c.split.eq]; simp at ha ⊢; tauto)

theorem nQ (c : Ctx s s' A P Q V x n p d) : ∀ a ∈ Q, a ≠ n := fun a ha => c.nA a (by rw [c.split.eq]; simp [ha])

theorem ndP (c : Ctx s s' A P Q V x n p d) : (0 :: P).Nodup := by
  have := c.inv.links.nodup; rw [c.split.eq, ← List.cons_append] at this
  exact (List.nodup_append.1 this).1

theorem pQ (c : Ctx s s' A P Q V x n p d) {i : Nat} (hi : i < s.maxLevel) : ∀ a ∈ Q, a ≠ p i := by
  rintro a ha rfl
  have := c.inv.links.nodup; rw [c.split.eq, ← List.cons_append] at this
  exact (List.nodup_append.1 this).2.2 _ (c.prev i hi).mem _ ha rfl

theorem cumSame (c : Ctx s s' A P Q V x n p d) {i : Nat} (hi : i < s.maxLevel) {X : List Nat}
    (hX : ∀ a ∈ X, a ≠ n ∧ a ≠ p i) : Cum s' i X = Cum s i X := by
  apply Cum_congr
  intro b hb
  obtain ⟨h1, h2⟩ := hX b hb
  exact ⟨c.added.lv b h1, by rw [c.added.wd b i hi, if_neg h1, if_neg h2]⟩

theorem cumP (c : Ctx s s' A P Q V x n p d) {i : Nat} (hi : i < s.maxLevel) :
    Cum s' i (0 :: P) = Cum s i (0 :: P) + (1 - d i) := by
  refine Cum_upd c.ndP (c.prev i hi).mem (c.prev i hi).lt (fun b hb => c.added.lv b (c.nP b hb)) ?_
  intro b hb
  rw [c.added.wd b i hi, if_neg (c.nP b hb)]

theorem cumN (c : Ctx s s' A P Q V x n p d) {i : Nat} (hi : i < s.maxLevel) {Z : List Nat} (hZ : ∀ a ∈ Z, a ∈ Q) :
    Cum s' i (n :: Z) = d i + Cum s i Z := by
  rw [Cum_cons, c.cumSame hi (fun a ha => ⟨c.nQ a (hZ a ha), c.pQ hi a (hZ a ha)⟩), c.added.wd n i hi, if_pos rfl]
  by_cases h : i < lv s' n
  · rw [if_pos h]
  · rw [if_neg h, c.added.dhi i (by omega)]

theorem cumPN (c : Ctx s s' A P Q V x n p d) {i : Nat} (hi : i < s.maxLevel) {Z : List Nat} (hZ : ∀ a ∈ Z, a ∈ Q) :
    Cum s' i (0 :: P ++ n :: Z) = Cum s i (0 :: P ++ Z) + 1 := by
  rw [Cum_append, c.cumP hi, c.cumN hi hZ, Cum_append]; ring

theorem V'P (c : Ctx s s' A P Q V x n p d) {a : Nat} (ha : a ∈ P) : Function.update V n x a = V a :=
  Function.update_of_ne (c.nP a (by simp [ha])) _ _
theorem V'Q (c : Ctx s s' A P Q V x n p d) {a : Nat} (ha : a ∈ Q) : Function.update V n x a = V a :=
  Function.update_of_ne (c.nQ a ha) _ _

/-- Equal-valued neighbours keep non-negative widths. -/
theorem dup' (c : Ctx s s' A P Q V x n p d) : ∀ X a Y b Z, P ++ n :: Q = X ++ a :: (Y ++ b :: Z) → ∀ i, i < lv s' a →
    i < lv s' b → (∀ e ∈ Y, lv s' e ≤ i) → Function.update V n x a = Function.update V n x b → 0 ≤ wd s' a i := by
  intro X a Y b Z e i ha hb hY hV
  rcases split_cmp e with ⟨h1, h2, h3⟩ | ⟨W, h1, h2⟩ | ⟨W, h1, h2⟩
  · -- a = n
    subst h2
    have hiM : i < s.maxLevel := by have := c.added.lvn.2; omega
    rw [c.added.wd _ i hiM, if_pos rfl]
    by_cases h0 : i = 0
    · subst h0; rw [c.added.d0]; norm_num
    · obtain ⟨B, C, g1, g2, g3⟩ := c.added.stop i (by omega) ha
      have hf : Q.find? (fun b => decide (i < lv s' b)) = some b := by rw [h3]; exact find_mid hY hb
      rw [hf] at g3
      obtain ⟨-, g4⟩ := g3
      cases B with
      | nil => rw [g2]; rfl
      | cons z B =>
        simp at g1
        exact absurd hV (g4 n (by simp [g1.1]) (by omega))
  · -- a in Q
    have haQ : a ∈ Q := by rw [h2]; simp
    have hbQ : b ∈ Q := by rw [h2]; simp
    have hiM : i < s.maxLevel := by
      have := (c.links'.lvl a (by simp [haQ])).2; rw [c.added.max] at this; omega
    rw [c.added.wd a i hiM, if_neg (c.nQ a haQ), if_neg (c.pQ hiM a haQ)]
    rw [c.V'Q haQ, c.V'Q hbQ] at hV
    refine c.inv.dup (P ++ W) a Y b Z (by rw [c.split.eq, h2]; simp) i ?_ ?_ ?_ hV
    · rwa [c.added.lv a (c.nQ a haQ)] at ha
    · rwa [c.added.lv b (c.nQ b hbQ)] at hb
    · intro e he; rw [← c.added.lv e (c.nQ e (by rw [h2]; simp [he]))]; exact hY e he
  · -- a in P
    have haP : a ∈ P := by rw [h1]; simp
    have hax : V a < x := c.split.lt a haP
    rw [c.V'P haP] at hV
    have hiM : i < s.maxLevel := by
      have := (c.links'.lvl a (by simp [haP])).2; rw [c.added.max] at this; omega
    have han := c.nP a (by simp [haP])
    rcases split_cmp h2 with ⟨k1, k2, k3⟩ | ⟨U, k1, k2⟩ | ⟨U, k1, k2⟩
    · rw [k2, Function.update_self] at hV; rw [hV] at hax; exact absurd hax (lt_irrefl _)
    · -- b in the rest of P
      have hbP : b ∈ P := by rw [h1, k1]; simp
      rw [c.V'P hbP] at hV
      have hb' : i < lv s b := by rwa [c.added.lv b (c.nP b (by simp [hbP]))] at hb
      have ha' : i < lv s a := by rwa [c.added.lv a han] at ha
      have hap : a ≠ p i := by
        intro hc
        have := (prev_iff c.ndP (c.prev i hiM) (X := 0 :: X) (Y := W) (by rw [h1]; rfl) ha').1 hc b (by rw [k1]; simp)
        omega
      rw [c.added.wd a i hiM, if_neg han, if_neg hap]
      refine c.inv.dup X a Y b (U ++ Q) (by rw [c.split.eq, h1, k1]; simp) i ha' hb' ?_ hV
      intro e he; rw [← c.added.lv e (c.nP e (by rw [h1, k1]; simp [he]))]; exact hY e he
    · have hbQ : b ∈ Q := by rw [k2]; simp
      rw [c.V'Q hbQ] at hV
      have := c.split.ge b hbQ
      rw [← hV] at this; exact absurd hax (not_lt.2 this)

end Ctx

theorem dup_sum {s : SkipList F} {A : List Nat} {V : Nat → F} 
    (hd : ∀ X a Y b Z, A = X ++ a :: (Y ++ b :: Z) → ∀ i, i < lv s a →
      i < lv s b → (∀ e ∈ Y, lv s e ≤ i) → V a = V b → 0 ≤ wd s a i) {t : Nat} {Z : List Nat} {i : Nat} (ht : i < lv s t) :
    ∀ (D X : List Nat), A = X ++ (D ++ t :: Z) → (∀ b ∈ D, V b = V t) → 0 ≤ Cum s i D := by
  intro D
  induction D with
  | nil => intro X _ _; rfl
  | cons a D ih =>
    intro X e hD
    have h1 := ih (X ++ [a]) (by rw [e]; simp) (fun b hb => hD b (by simp [hb]))
    rw [Cum_cons]
    by_cases ha : i < lv s a
    · rw [if_pos ha]
      have : 0 ≤ wd s a i := by
        rcases hf : D.find? (fun b => decide (i < lv s b)) with _ | b
        · have hD' : ∀ b ∈ D, lv s b ≤ i := by
            intro b hb; have := List.find?_eq_none.1 hf b hb; simpa using this
          exact hd X a D t Z (by rw [e]; simp) i ha ht hD' (hD a (by simp))
        · obtain ⟨Y1, Y2, e1, hb, hY1⟩ := find_some hf
          refine hd X a Y1 b (Y2 ++ t :: Z) (by rw [e, e1]; simp) i ha hb hY1 ?_
          rw [hD a (by simp), hD b (by rw [e1]; simp)]
      omega
    · rw [if_neg ha]; omega

namespace Ctx

/-- How the width of the new node relates to the distance to its successor `t` at level `i+1`. -/
theorem stop_le (c : Ctx s s' A P Q V x n p d) {i : Nat} (hi : i + 1 < lv s' n) :
    ∃ Y T, Q = Y ++ T ∧ (∀ b ∈ Y, lv s' b ≤ i + 1) ∧ (∀ a, T.head? = some a → i + 1 < lv s' a) ∧
      d (i + 1) ≤ Cum s' i (n :: Y) ∧
      (x ∉ (A.map V) → (A.map V).Nodup → d (i + 1) = Cum s' i (n :: Y)) := by
  obtain ⟨B, C, g1, g2, g3⟩ := c.added.stop (i + 1) (by omega) hi
  rw [Nat.add_sub_cancel] at g2 g3
  rcases hf : Q.find? (fun b => decide (i + 1 < lv s' b)) with _ | t
  · rw [hf] at g3
    simp only at g3
    subst g3
    rw [List.append_nil] at g1
    subst g1
    refine ⟨Q, [], by simp, ?_, by simp, g2.le, fun _ _ => g2⟩
    intro b hb; have := List.find?_eq_none.1 hf b hb; simpa using this
  · rw [hf] at g3
    obtain ⟨⟨e, C', rfl, he, hV, ht⟩, g5⟩ := g3
    obtain ⟨Y, T, hQ, htl, hY⟩ := find_some hf
    have hsort := c.links'.sorted
    have key : n :: Y = B ++ (n :: Y).drop B.length ∧ ∀ b ∈ (n :: Y).drop B.length,
        Function.update V n x b = Function.update V n x t := by
      have e1 : B ++ e :: C' = (n :: Y) ++ t :: T := by rw [← g1, hQ]; simp
      rcases split_cmp e1 with ⟨h1, h2, h3⟩ | ⟨Z, h1, h2⟩ | ⟨Z, h1, h2⟩
      · rw [h1]; simp
      · rw [h1]
        refine ⟨by simp, ?_⟩
        intro b hb
        simp at hb
        have e2 : P ++ n :: Q = (P ++ B) ++ (e :: Z ++ t :: T) := by
          rw [hQ]
          calc P ++ n :: (Y ++ t :: T) = P ++ ((n :: Y) ++ t :: T) := by simp
            _ = _ := by rw [h1]; simp
        rw [e2, List.map_append, List.pairwise_append] at hsort
        have hs2 := hsort.2.1
        rw [List.map_append, List.map_cons, List.map_cons, List.pairwise_append] at hs2
        obtain ⟨q1, q2, q3⟩ := hs2
        refine le_antisymm (q3 _ (by rcases hb with rfl | hb <;> simp; exact Or.inr ⟨b, hb, rfl⟩) _ (by simp)) ?_
        rw [← hV]
        rcases hb with rfl | hb
        · exact le_rfl
        · exact (List.pairwise_cons.1 q1).1 _ (List.mem_map_of_mem hb)
      · -- t would be before e
        exfalso
        have hnd := c.links'.nodup
        have e2 : 0 :: (P ++ n :: Q) = (0 :: P ++ B) ++ e :: C' := by rw [g1]; simp
        rw [e2] at hnd
        have := (List.nodup_append.1 hnd).2.2 t (by rw [h1]; simp) t ht
        exact this rfl
    obtain ⟨k1, k2⟩ := key
    have hA : P ++ n :: Q = (P ++ B) ++ ((n :: Y).drop B.length ++ t :: T) := by
      calc P ++ n :: Q = P ++ ((n :: Y) ++ t :: T) := by rw [hQ]; simp
        _ = P ++ ((B ++ (n :: Y).drop B.length) ++ t :: T) := by rw [← k1]
        _ = _ := by simp
    refine ⟨Y, t :: T, hQ, hY, by simpa using htl, ?_, ?_⟩
    · rw [k1, Cum_append, ← g2]
      have := dup_sum (A := P ++ n :: Q) (V := Function.update V n x) c.dup' (i := i) (t := t) (Z := T) (by omega)
        ((n :: Y).drop B.length) (P ++ B) hA k2
      omega
    · intro hx hnd
      have : (n :: Y).drop B.length = [] := by
        by_contra hne
        obtain ⟨b, D, hD⟩ := List.exists_cons_of_ne_nil hne
        have hb := k2 b (by rw [hD]; simp)
        have hbm : b ∈ n :: Y := by rw [k1, hD]; simp
        have htQ : t ∈ Q := by rw [hQ]; simp
        rcases List.mem_cons.1 hbm with rfl | hbY
        · rw [Function.update_self, c.V'Q htQ] at hb
          exact hx (by rw [c.split.eq]; simp; exact Or.inr ⟨t, htQ, hb.symm⟩)
        · have hbQ : b ∈ Q := by rw [hQ]; simp [hbY]
          rw [c.V'Q htQ, c.V'Q hbQ] at hb
          rw [c.split.eq, hQ] at hnd
          simp only [List.map_append, List.map_cons] at hnd
          have h1 := (List.nodup_append.1 hnd).2.1
          exact (List.nodup_append.1 h1).2.2 _ (List.mem_map_of_mem hbY) _ (by simp) hb
      rw [this, List.append_nil] at k1
      rw [k1, g2]

theorem inv' (c : Ctx s s' A P Q V x n p d) : Inv s' (P ++ n :: Q) (Function.update V n x) := by
  have hA := c.split.eq
  refine ⟨c.links', ?_, ?_, ?_, ?_, c.dup'⟩
  · rw [c.added.length, c.inv.len, hA]; simp; ring
  · intro a ha
    rw [c.added.wd a 0 c.inv.links.pos, c.added.d0]
    by_cases h1 : a = n
    · rw [if_pos h1]
    · have ha' : a ∈ 0 :: A := by rw [hA]; simp [h1] at ha ⊢; tauto
      rw [if_neg h1, c.inv.w0 a ha']; simp
  · intro i hi
    rw [c.added.max] at hi
    rw [← List.cons_append, c.cumPN hi (fun a ha => ha), List.cons_append, ← hA, c.inv.tot i hi, hA]; simp; ring
  · intro X Y e i hi hY
    rw [c.added.max] at hi
    rw [← List.cons_append] at e
    rcases split_at e with ⟨Z, h1, h2⟩ | ⟨a, Z, h1, h2⟩
    · cases Z with
      | nil =>
        simp at h1 h2
        subst h1
        have hin : i + 1 < lv s' n := hY n (by rw [← h2]; rfl)
        obtain ⟨W, T, hQ, hW, hT, hd, -⟩ := c.stop_le hin
        have hWQ : ∀ a ∈ W, a ∈ Q := fun a ha => by rw [hQ]; simp [ha]
        have m := c.inv.mono (0 :: P ++ W) T (by rw [hA, hQ]; simp) i hi (fun a ha => by
          have := hT a ha
          rwa [c.added.lv a (c.nQ a (by rw [hQ]; simp [List.mem_of_mem_head? ha]))] at this)
        have e1 := c.cumPN (show i < s.maxLevel by omega) hWQ
        have e2 := c.cumPN hi hWQ
        rw [Cum_append] at e1 e2
        have e3 : Cum s' (i + 1) (n :: W) = d (i + 1) := by
          rw [Cum_cons, if_pos hin, c.added.wd n _ hi, if_pos rfl, Cum_low hW]; ring
        omega
      | cons z Z =>
        simp at h2
        obtain ⟨rfl, h2⟩ := h2
        subst h1
        have hZ : ∀ a ∈ Z, a ∈ Q := fun a ha => by rw [h2]; simp [ha]
        rw [c.cumPN (show i < s.maxLevel by omega) hZ, c.cumPN hi hZ]
        have m := c.inv.mono (0 :: P ++ Z) Y (by rw [hA, h2]; simp) i hi (fun a ha => by
          have := hY a ha
          rwa [c.added.lv a (c.nQ a (by rw [h2]; simp [List.mem_of_mem_head? ha]))] at this)
        omega
    · have ha := hY a (by rw [h2]; rfl)
      have haP : a ∈ 0 :: P := by rw [h1]; simp
      rw [c.added.lv a (c.nP a haP)] at ha
      have hne : ∀ j, j ≤ i + 1 → ∀ b ∈ X, b ≠ n ∧ b ≠ p j := by
        intro j hj b hb
        refine ⟨c.nP b (by rw [h1]; simp [hb]), ?_⟩
        rintro rfl
        exact (c.prev j (by omega)).not_mem c.ndP h1 (by omega) hb
      rw [c.cumSame (show i < s.maxLevel by omega) (hne i (by omega)), c.cumSame hi (hne (i + 1) le_rfl)]
      refine c.inv.mono X (a :: Z ++ Q) (by rw [hA, ← List.cons_append, h1]; simp) i hi ?_
      intro b hb; simp at hb; rw [← hb]; exact ha

theorem exact' (c : Ctx s s' A P Q V x n p d) (hE : Exact s A) (hx : x ∉ A.map V) (hnd : (A.map V).Nodup) :
    Exact s' (P ++ n :: Q) := by
  have hA := c.split.eq
  have hbig : ∀ i < s.maxLevel, ∀ Z Y, Q = Z ++ Y → (∀ a, Y.head? = some a → i < lv s' a) →
      Cum s' i (0 :: P ++ n :: Z) = (0 :: P ++ n :: Z).length := by
    intro i hi Z Y h2 hY
    have hZ : ∀ a ∈ Z, a ∈ Q := fun a ha => by rw [h2]; simp [ha]
    rw [c.cumPN hi hZ, hE (0 :: P ++ Z) Y (by rw [hA, h2]; simp) i hi (fun a ha => by
      have := hY a ha
      rwa [c.added.lv a (c.nQ a (by rw [h2]; simp [List.mem_of_mem_head? ha]))] at this)]
    simp; ring
  have hP : ∀ i, i < lv s' n → Cum s' i (0 :: P) = (0 :: P).length := by
    intro i
    induction i with
    | zero =>
      intro _
      rw [c.cumP c.inv.links.pos, c.added.d0, hE (0 :: P) Q (by rw [hA]; simp) 0 c.inv.links.pos (fun a ha => by
        exact (c.inv.links.lvl a (by rw [hA]; simp [List.mem_of_mem_head? ha])).1)]
      ring
    | succ i ih =>
      intro hin
      have hi : i + 1 < s.maxLevel := by have := c.added.lvn.2; omega
      obtain ⟨W, T, hQ, hW, hT, -, hd⟩ := c.stop_le hin
      have hd := hd hx hnd
      have b1 := hbig (i + 1) hi W T hQ hT
      have b0 := hbig i (by omega) W T hQ (fun a ha => by have := hT a ha; omega)
      have ih := ih (by omega)
      rw [Cum_append] at b1 b0
      have e3 : Cum s' (i + 1) (n :: W) = d (i + 1) := by
        rw [Cum_cons, if_pos hin, c.added.wd n _ hi, if_pos rfl, Cum_low hW]; ring
      omega
  intro X Y e i hi hY
  rw [c.added.max] at hi
  rw [← List.cons_append] at e
  rcases split_at e with ⟨Z, h1, h2⟩ | ⟨a, Z, h1, h2⟩
  · cases Z with
    | nil =>
      simp at h1 h2
      subst h1
      exact hP i (hY n (by rw [← h2]; rfl))
    | cons z Z =>
      simp at h2
      obtain ⟨rfl, h2⟩ := h2
      subst h1
      exact hbig i hi Z Y h2 hY
  · have ha := hY a (by rw [h2]; rfl)
    have haP : a ∈ 0 :: P := by rw [h1]; simp
    rw [c.added.lv a (c.nP a haP)] at ha
    rw [c.cumSame hi]
    · refine hE X (a :: Z ++ Q) (by rw [hA, ← List.cons_append, h1]; simp) i hi ?_
      intro b hb; simp at hb; rw [← hb]; exact ha
    · intro b hb
      refine ⟨c.nP b (by rw [h1]; simp [hb]), ?_⟩
      rintro rfl
      exact (c.prev i hi).not_mem c.ndP h1 ha hb

end Ctx
end

/-- `Add` keeps the invariant, and exactness of the widths if the value is new. -/
theorem Inv.add {s : SkipList F} {A : List Nat} {V : Nat → F} (h : Inv s A V) (x : F) :
    ∃ s' A' V', s.add x = .val s' ∧ Inv s' A' V' ∧ ((A'.map V' : List F) : Multiset F) = x ::ₘ (A.map V : List F) ∧
      (Exact s A → x ∉ A.map V → (A.map V).Nodup → Exact s' A') ∧ s'.maxLevel = s.maxLevel := by
  obtain ⟨P, Q, hs⟩ := h.links.split x
  obtain ⟨s', p, d, r, hp, ha, hl, -, -⟩ := add_added h.links hs
  have c : Ctx s s' A P Q V x s.alloc p d := ⟨h, hs, hp, rfl, ha, hl⟩
  refine ⟨s', _, _, r, c.inv', ?_, c.exact', ha.max⟩
  rw [List.map_append, List.map_cons, Function.update_self]
  have e1 : P.map (Function.update V s.alloc x) = P.map V := List.map_congr_left fun a ha => c.V'P ha
  have e2 : Q.map (Function.update V s.alloc x) = Q.map V := List.map_congr_left fun a ha => c.V'Q ha
  rw [e1, e2, hs.eq, List.map_append, Multiset.cons_coe, Multiset.coe_eq_coe]
  exact List.perm_middle

end Verif.Skip
