import Verif.Proofs.Average
import Verif.Proofs.SkipRun
import Mathlib.Data.Fintype.Fin

/-! # Skip list: the order of the nodes does not depend on the draws, the heights do -/

set_option linter.unusedSectionVars false

namespace Verif.Skip
open Verif Verif.Spec Timed

variable {F : Type} [LinearOrder F]

/-! ### The order of the nodes -/

/-- The addresses on the bottom level, the values and the next address. -/
structure Shadow (F : Type) where
  A : List Nat
  V : Nat → F
  alloc : Nat

/-- What an operation does to them. -/
def Shadow.step (σ : Shadow F) : OSOp F → Shadow F
  | .add x => ⟨(σ.A.takeWhile fun a => decide (σ.V a < x)) ++ σ.alloc :: (σ.A.dropWhile fun a => decide (σ.V a < x)),
      Function.update σ.V σ.alloc x, σ.alloc + 1⟩
  | .remove x => { σ with A := (σ.A.takeWhile fun a => decide (σ.V a < x)) ++
        match σ.A.dropWhile fun a => decide (σ.V a < x) with | n :: Q => if σ.V n = x then Q else n :: Q | [] => [] }
  | .clear => { σ with A := [] }

/-- The shadow of a history. -/
def shadow (z : F) (ops : List (OSOp F)) : Shadow F := ops.foldl Shadow.step ⟨[], fun _ => z, 1⟩

/-- The number of values added. -/
def adds (ops : List (OSOp F)) : Nat := ops.countP fun | .add _ => true | _ => false

/-- The height that draw number `k` gives. -/
def heightOf (M : Nat) (draws : Nat → Nat → Bool) (k : Nat) : Nat := SkipList.levelLoop M (draws k) M 1

/-- A state belongs to a shadow. -/
structure Follows (M : Nat) (dr : Nat → Nat → Bool) (σ : Shadow F) (s : SkipList F) : Prop where
  inv : Inv s σ.A σ.V
  max : s.maxLevel = M
  alloc : s.alloc = σ.alloc
  drawn : s.drawn + 1 = s.alloc
  draws : s.draws = dr
  height : ∀ a ∈ σ.A, lv s a = heightOf M dr (a - 1)

theorem Follows.new {M : Nat} (hM : 0 < M) (draws : Nat → Nat → Bool) (z : F) :
    Follows M draws ⟨[], fun _ => z, 1⟩ (new M draws : SkipList F) :=
  ⟨(Inv.new M hM draws _).1, rfl, rfl, rfl, rfl, by simp⟩

theorem Follows.step {M : Nat} {draws : Nat → Nat → Bool} {σ : Shadow F} {s : SkipList F} (h : Follows M draws σ s) (o : OSOp F) :
    ∃ s', s.step o = .val s' ∧ Follows M draws (σ.step o) s' ∧
      (Exact s σ.A → (∀ x, o = .add x → x ∉ σ.A.map σ.V) → (σ.A.map σ.V).Nodup → Exact s' (σ.step o).A) := by
  cases o with
  | add x =>
    have hs := h.inv.links.split_at x
    obtain ⟨s', p, d, r, hp, ha, hl, hd1, hd2⟩ := add_added h.inv.links hs
    have c : Ctx s s' _ _ _ _ x s.alloc p d := ⟨h.inv, hs, hp, rfl, ha, hl⟩
    have hn := (addT_cost h.inv.links hs r).2
    have hi := c.inv'
    rw [h.alloc] at hi
    refine ⟨s', r, ⟨hi, ha.max.trans h.max, by rw [ha.alloc, h.alloc]; rfl, by rw [hd2, ha.alloc, h.drawn], hd1.trans h.draws, ?_⟩,
      fun hE hx hnd => by have := c.exact' hE (hx x rfl) hnd; rw [h.alloc] at this; exact this⟩
    intro a haA
    by_cases e : a = s.alloc
    · subst e
      rw [hn, SkipList.randLevel, h.max, h.draws, ← h.drawn]; rfl
    · have haA : a ∈ (σ.A.takeWhile fun a => decide (σ.V a < x)) ++ σ.alloc :: (σ.A.dropWhile fun a => decide (σ.V a < x)) := haA
      rw [List.mem_append, List.mem_cons, ← h.alloc] at haA
      rw [ha.lv a e]
      refine h.height a ?_
      rw [hs.eq, List.mem_append]
      tauto
  | remove x =>
    obtain ⟨s', A', e, i, -, gE, g1, g2, g3, g4, g5, rfl⟩ := h.inv.remove x
    refine ⟨s', e, ⟨i, g1.trans h.max, g5.trans h.alloc, by rw [g3, g5, h.drawn], g2.trans h.draws, ?_⟩, fun hE _ _ => gE hE⟩
    intro a ha
    rw [g4]
    refine h.height a ?_
    have ha : a ∈ (σ.A.takeWhile fun a => decide (σ.V a < x)) ++ match σ.A.dropWhile fun a => decide (σ.V a < x) with
      | n :: Q => if σ.V n = x then Q else n :: Q | [] => [] := ha
    rw [← List.takeWhile_append_dropWhile (l := σ.A) (p := fun a => decide (σ.V a < x)), List.mem_append]
    rw [List.mem_append] at ha
    refine ha.imp_right fun ha => ?_
    revert ha
    cases σ.A.dropWhile fun a => decide (σ.V a < x) with
    | nil => exact id
    | cons n Q => dsimp only; split_ifs <;> simp +contextual
  | clear =>
    exact ⟨s.clear, rfl, ⟨h.inv.clear.1, h.max, h.alloc, h.drawn, h.draws, by simp [Shadow.step]⟩, fun _ _ _ => h.inv.clear.2⟩

theorem run_follows {M : Nat} (hM : 0 < M) (draws : Nat → Nat → Bool) (z : F) (ops : List (OSOp F)) :
    ∃ s, SkipList.run M draws ops = .val s ∧ Follows M draws (shadow z ops) s := by
  induction ops using List.reverseRecOn with
  | nil => exact ⟨_, rfl, Follows.new hM draws z⟩
  | append_singleton ops o ih =>
    obtain ⟨s, e, h⟩ := ih
    obtain ⟨s', e', h', -⟩ := h.step o
    refine ⟨s', ?_, by simpa [shadow, List.foldl_append] using h'⟩
    unfold SkipList.run at e ⊢
    rw [Go.runOps_append, e]
    simp [Go.runOps, e']

theorem shadow_alloc (z : F) (ops : List (OSOp F)) : (shadow z ops).alloc = adds ops + 1 := by
  induction ops using List.reverseRecOn with
  | nil => rfl
  | append_singleton ops o ih =>
    rw [shadow, List.foldl_append, ← shadow, adds, List.countP_append, ← adds]
    cases o <;> simp [Shadow.step, ih]

/-- The shadow holds the multiset of the history; its addresses are distinct and between 1 and the number of additions. -/
theorem shadow_spec (z : F) (ops : List (OSOp F)) :
    ((((shadow z ops).A.map (shadow z ops).V : List F)) : Multiset F) = bag ops ∧ (shadow z ops).A.Nodup ∧
      ∀ a ∈ (shadow z ops).A, 1 ≤ a ∧ a ≤ adds ops := by
  obtain ⟨s, e, h⟩ := run_follows Nat.one_pos (fun _ _ => false) z ops
  have hnd := List.nodup_cons.1 h.inv.links.nodup
  refine ⟨?_, hnd.2, fun a ha => ?_⟩
  · clear h hnd e
    induction ops using List.reverseRecOn with
    | nil => rfl
    | append_singleton ops o ih =>
      obtain ⟨s, e, h⟩ := run_follows Nat.one_pos (fun _ _ => false) z ops
      rw [shadow, List.foldl_append, ← shadow, bag, List.foldl_append, ← bag, List.foldl_cons, List.foldl_nil, List.foldl_cons,
        List.foldl_nil, ← ih]
      cases o with
      | add x =>
        have hs := h.inv.links.split_at x
        obtain ⟨s', p, d, r, hp, ha, hl, -⟩ := add_added h.inv.links hs
        have c : Ctx s s' _ _ _ _ x s.alloc p d := ⟨h.inv, hs, hp, rfl, ha, hl⟩
        simp only [Shadow.step, bagStep]
        rw [← h.alloc, List.map_append, List.map_cons, Function.update_self, List.map_congr_left fun a ha => c.V'P ha,
          List.map_congr_left fun a ha => c.V'Q ha, Multiset.cons_coe, Multiset.coe_eq_coe]
        refine List.perm_middle.trans ?_
        rw [← List.map_append, List.takeWhile_append_dropWhile]
      | remove x =>
        obtain ⟨s', A', -, -, m, -, -, -, -, -, -, rfl⟩ := h.inv.remove x
        exact m
      | clear => rfl
  · have h0 : a ≠ 0 := by rintro rfl; exact hnd.1 ha
    have := h.inv.links.fresh a (by simp [ha])
    rw [h.alloc, shadow_alloc] at this
    omega

/-- The widths are exact if every value was added while it was not stored. -/
theorem run_followsE {M : Nat} (hM : 0 < M) (draws : Nat → Nat → Bool) (z : F) (ops : List (OSOp F)) (hf : AddsFresh ops) :
    ∃ s, SkipList.run M draws ops = .val s ∧ Follows M draws (shadow z ops) s ∧ Exact s (shadow z ops).A ∧ (bag ops).Nodup := by
  induction ops using List.reverseRecOn with
  | nil => exact ⟨_, rfl, Follows.new hM draws z, (Inv.new M hM draws fun _ => z).2, by simp [bag]⟩
  | append_singleton ops o ih =>
    obtain ⟨s, e, h, hE, hnd⟩ := ih (fun pre x post c => hf pre x (post ++ [o]) (by simp [c]))
    obtain ⟨s', e', h', hE'⟩ := h.step o
    have ho : ∀ x, o = .add x → x ∉ bag ops := fun x hx => hf ops x [] (by simp [hx])
    have hb := (shadow_spec z ops).1
    refine ⟨s', ?_, by simpa [shadow, List.foldl_append] using h', ?_, ?_⟩
    · unfold SkipList.run at e ⊢
      rw [Go.runOps_append, e]
      simp [Go.runOps, e']
    · have := hE' hE (fun x hx => by have := ho x hx; rw [← hb] at this; simpa using this) (by rw [← hb] at hnd; simpa using hnd)
      simpa [shadow, List.foldl_append] using this
    · rw [bag, List.foldl_append, ← bag]
      cases o with
      | add x => exact Multiset.nodup_cons.2 ⟨ho x rfl, hnd⟩
      | remove x => exact hnd.erase x
      | clear => exact Multiset.nodup_zero

/-! ### Heights from uniform draws -/

/-- Draw number `k` is below the threshold for level `l`. -/
def drawsOf {n N : Nat} (c : Nat → Nat) (d : Fin n → Fin N) (k l : Nat) : Bool := if h : k < n then decide ((d ⟨k, h⟩).1 < c l) else false

theorem levelLoop_lt {M : Nat} {t : Nat → Bool} (ht : ∀ l, t (l + 1) = true → t l = true) : ∀ f l m, l ≤ m → m < M → M ≤ l + f →
    (m < SkipList.levelLoop M t f l ↔ l ≤ m ∧ ((l = m + 1) ∨ t m = true)) := by
  have anti : ∀ i j, i ≤ j → t j = true → t i = true := by
    intro i j h
    induction h with
    | refl => exact id
    | step _ ih => exact fun h => ih (ht _ h)
  intro f
  induction f with
  | zero => intro l m h1 h2 h3; omega
  | succ f ih =>
    intro l m h1 h2 h3
    unfold SkipList.levelLoop
    by_cases c : t l = true
    · rw [if_pos ⟨by omega, c⟩]
      by_cases e : l = m
      · subst e
        have := levelLoop_bounds M t f (l + 1) (by omega)
        constructor
        · intro _; exact ⟨le_rfl, .inr c⟩
        · intro _; omega
      · rw [ih (l + 1) m (by omega) h2 (by omega)]
        constructor
        · rintro ⟨-, a | a⟩
          · omega
          · exact ⟨h1, .inr a⟩
        · rintro ⟨-, a | a⟩
          · omega
          · exact ⟨by omega, .inr a⟩
    · rw [if_neg fun h => c h.2]
      constructor
      · intro h; omega
      · rintro ⟨-, a | a⟩
        · omega
        · exact absurd (anti l m h1 a) c

/-- The thresholds that the uniform draws below `N` are compared with: `c l` of them make a node higher than `l`. -/
structure Thresholds (M N : Nat) (R : ℚ) (c : Nat → Nat) : Prop where
  pos : 0 < M
  zero : c 0 = N
  anti : ∀ l, c (l + 1) ≤ c l
  some : ∀ l < M, 0 < c l
  ratio : ∀ l, l + 1 < M → (c l : ℚ) ≤ R * c (l + 1)

/-- The height for one draw. -/
def height (M : Nat) (c : Nat → Nat) {N : Nat} (k : Fin N) : Nat := SkipList.levelLoop M (fun l => decide (k.1 < c l)) M 1

theorem heightOf_drawsOf {M n N : Nat} (c : Nat → Nat) (d : Fin n → Fin N) {k : Nat} (h : k < n) :
    heightOf M (drawsOf c d) k = height M c (d ⟨k, h⟩) := by
  unfold heightOf height
  congr 1
  funext l
  simp [drawsOf, h]

section
variable {M N : Nat} {R : ℚ} {c : Nat → Nat} (hc : Thresholds M N R c)
include hc

theorem Thresholds.le {l : Nat} : c l ≤ N := by
  rw [← hc.zero]
  induction l with
  | zero => exact le_rfl
  | succ l ih => exact le_trans (hc.anti l) ih

theorem lt_height (k : Fin N) {m : Nat} (hm : m < M) : m < height M c k ↔ k.1 < c m := by
  have hpos := hc.pos
  rcases Nat.eq_zero_or_pos m with rfl | h
  · have := levelLoop_bounds M (fun l => decide (k.1 < c l)) M 1 hpos
    unfold height
    rw [hc.zero]
    have := k.2
    omega
  · unfold height
    rw [levelLoop_lt (fun l h => by simp only [decide_eq_true_eq] at h ⊢; exact lt_of_lt_of_le h (hc.anti l)) M 1 m h hm (by omega)]
    simp only [decide_eq_true_eq]
    constructor
    · rintro ⟨-, a | a⟩
      · omega
      · exact a
    · exact fun a => ⟨h, .inr a⟩

theorem height_le (k : Fin N) : height M c k ≤ M := (levelLoop_bounds M _ M 1 hc.pos).2

theorem card_lt {m : Nat} (hm : m < M) : (Finset.univ.filter fun k : Fin N => m < height M c k).card = c m := by
  simp only [lt_height hc _ hm]
  have := Fin.card_filter_val_lt (n := N) (m := c m)
  rw [this]
  exact min_eq_right hc.le

theorem card_eq {m : Nat} (hm : m + 1 < M) : (Finset.univ.filter fun k : Fin N => height M c k = m + 1).card = c m - c (m + 1) := by
  have h1 := card_lt hc (m := m) (by omega)
  have h2 := card_lt hc hm
  have : (Finset.univ.filter fun k : Fin N => m < height M c k) = (Finset.univ.filter fun k : Fin N => height M c k = m + 1) ∪
      (Finset.univ.filter fun k : Fin N => m + 1 < height M c k) := by
    ext k; simp; omega
  rw [this, Finset.card_union_of_disjoint (Finset.disjoint_filter.2 fun k _ h => by omega), h2] at h1
  omega

theorem card_top : (Finset.univ.filter fun k : Fin N => height M c k = M).card = c (M - 1) := by
  have hpos := hc.pos
  rw [← card_lt hc (m := M - 1) (by omega)]
  congr 1
  ext k
  have := height_le hc k
  simp; omega

/-- The expected number of steps along a search path, level by level. -/
theorem stairs_low {n : Nat} {L : List (Fin n)} (hL : L.Nodup) : ∀ i, i < M →
    average (fun d : Fin n → Fin N => stairs i (L.map fun b => height M c (d b))) ≤ i * (R - 1) := by
  intro i
  induction i with
  | zero => intro _; simp [average, stairs]
  | succ i ih =>
    intro hi
    have h1 := ih (by omega)
    have h2 := visits_sum (ι := Fin n) (K := Fin N) (height M c) (m := i + 1) hL
    rw [card_lt hc hi, card_eq hc hi, Fintype.card_fin, Fintype.card_fin] at h2
    have hN : 0 < N := lt_of_lt_of_le (hc.some _ hi) hc.le
    have hT : (0 : ℚ) < (N : ℚ) ^ n := by positivity
    have hci : (0 : ℚ) < c (i + 1) := by exact_mod_cast hc.some _ hi
    unfold average at h1 ⊢
    rw [div_le_iff₀ hT] at h1 ⊢
    simp only [stairs, Nat.cast_add, Finset.sum_add_distrib]
    have hr := hc.ratio i hi
    have h3 : (∑ d : Fin n → Fin N, (visits (i + 1) (L.map fun b => height M c (d b)) : ℚ)) ≤ (R - 1) * (N : ℚ) ^ n := by
      refine le_of_mul_le_mul_right (le_trans h2 ?_) hci
      rw [Nat.cast_sub (hc.anti i)]
      calc ((c i : ℚ) - c (i + 1)) * (N : ℚ) ^ n ≤ ((R - 1) * c (i + 1)) * (N : ℚ) ^ n :=
            mul_le_mul_of_nonneg_right (by linarith) hT.le
        _ = _ := by ring
    push_cast
    linarith

/-- … the top level included. -/
theorem stairs_all {n : Nat} {L : List (Fin n)} (hL : L.Nodup) :
    average (fun d : Fin n → Fin N => stairs M (L.map fun b => height M c (d b))) ≤
      (M - 1 : Nat) * (R - 1) + L.length * (c (M - 1) / N) := by
  have hpos := hc.pos
  have h1 := stairs_low hc hL (M - 1) (by omega)
  have h2 := visits_top (ι := Fin n) (K := Fin N) (height M c) (height_le hc) L
  rw [card_top hc, Fintype.card_fin, Fintype.card_fin] at h2
  have hN : 0 < N := lt_of_lt_of_le (hc.some _ hpos) hc.le
  have hT : (0 : ℚ) < (N : ℚ) ^ n := by positivity
  have hN' : (0 : ℚ) < N := by exact_mod_cast hN
  obtain ⟨m, rfl⟩ : ∃ m, M = m + 1 := ⟨M - 1, by omega⟩
  rw [Nat.add_sub_cancel] at *
  unfold average at h1 ⊢
  rw [div_le_iff₀ hT] at h1 ⊢
  simp only [stairs, Nat.cast_add, Finset.sum_add_distrib]
  have h3 : (∑ d : Fin n → Fin N, (visits (m + 1) (L.map fun b => height (m + 1) c (d b)) : ℚ)) = L.length * (c m / N) * (N : ℚ) ^ n := by
    have : (N : ℚ) * (L.length * (c m / N) * (N : ℚ) ^ n) = L.length * (c m * (N : ℚ) ^ n) := by field_simp
    rw [← this] at h2
    exact mul_left_cancel₀ hN'.ne' h2
  linarith

/-- A lower bound: the nodes of the largest height. -/
theorem stairs_ge {n : Nat} (L : List (Fin n)) :
    L.length * ((c (M - 1) : ℚ) / N) ≤ average (fun d : Fin n → Fin N => stairs M (L.map fun b => height M c (d b))) := by
  have hpos := hc.pos
  have h2 := visits_top (ι := Fin n) (K := Fin N) (height M c) (height_le hc) L
  rw [card_top hc, Fintype.card_fin, Fintype.card_fin] at h2
  have hN : 0 < N := lt_of_lt_of_le (hc.some _ hpos) hc.le
  have hT : (0 : ℚ) < (N : ℚ) ^ n := by positivity
  have hN' : (0 : ℚ) < N := by exact_mod_cast hN
  obtain ⟨m, rfl⟩ : ∃ m, M = m + 1 := ⟨M - 1, by omega⟩
  rw [Nat.add_sub_cancel] at *
  unfold average
  rw [le_div_iff₀ hT]
  simp only [stairs, Nat.cast_add, Finset.sum_add_distrib]
  have h3 : (∑ d : Fin n → Fin N, (visits (m + 1) (L.map fun b => height (m + 1) c (d b)) : ℚ)) = L.length * (c m / N) * (N : ℚ) ^ n := by
    have : (N : ℚ) * (L.length * (c m / N) * (N : ℚ) ^ n) = L.length * (c m * (N : ℚ) ^ n) := by field_simp
    rw [← this] at h2
    exact mul_left_cancel₀ hN'.ne' h2
  have : (0 : ℚ) ≤ ∑ d : Fin n → Fin N, (stairs m (L.map fun b => height (m + 1) c (d b)) : ℚ) :=
    Finset.sum_nonneg fun d _ => Nat.cast_nonneg _
  linarith

end

theorem average_mono {n N : Nat} {f g : (Fin n → Fin N) → Nat} (h : ∀ d, f d ≤ g d) : average f ≤ average g := by
  unfold average
  exact div_le_div_of_nonneg_right (Finset.sum_le_sum fun d _ => by exact_mod_cast h d) (by positivity)

theorem average_add {n N : Nat} (f g : (Fin n → Fin N) → Nat) : average (fun d => f d + g d) = average f + average g := by
  unfold average
  rw [← add_div, ← Finset.sum_add_distrib]
  simp

theorem average_const {n N : Nat} (hN : 0 < N) (k : Nat) : average (fun _ : Fin n → Fin N => k) = k := by
  unfold average
  have : (0 : ℚ) < (N : ℚ) ^ n := by positivity
  rw [Finset.sum_const, Finset.card_univ]
  simp only [Fintype.card_pi, Fintype.card_fin, Finset.prod_const, Finset.card_univ, nsmul_eq_mul, Nat.cast_pow]
  field_simp

/-- A list of addresses as draws. -/
theorem exists_fin {n : Nat} {L : List Nat} (hL : L.Nodup) (h : ∀ a ∈ L, 1 ≤ a ∧ a ≤ n) :
    ∃ L' : List (Fin n), L'.Nodup ∧ L'.length = L.length ∧ ∀ {β : Type} (f : Nat → β) (g : Fin n → β),
      (∀ b : Fin n, f (b.1 + 1) = g b) → L.map f = L'.map g := by
  refine ⟨L.pmap (fun a (ha : 1 ≤ a ∧ a ≤ n) => ⟨a - 1, by omega⟩) h, ?_, by simp, ?_⟩
  · refine List.Nodup.pmap ?_ hL
    intro a ha b hb e
    have := congrArg Fin.val e
    simp at this
    omega
  · intro β f g hfg
    rw [List.map_pmap, ← List.pmap_eq_map (p := fun a => 1 ≤ a ∧ a ≤ n) (H := h)]
    apply List.pmap_congr_left
    intro a _ ha _
    rw [← hfg]
    congr 1
    simp
    omega

end Verif.Skip
