import Verif.Model.Tuple
import Verif.Proofs.MathUtil
import Verif.Proofs.MultiIndex
import Mathlib.Data.List.Nodup
import Mathlib.Data.List.Perm.Basic
import Mathlib.Tactic.NormNum

/-! # Proofs about tuples: `iter`, `hash`, and the translation of exponents to natural numbers -/

set_option linter.unusedSectionVars false
set_option linter.unusedSimpArgs false

namespace Verif.Joint
open Verif Verif.Spec Verif.MathUtil

/-! ## iter -/

section iter
variable {σ α β : Type}

theorem forEach_append (body : α → σ → Go (σ × List Err)) (l1 l2 : List α) (s : σ) :
    forEach body (l1 ++ l2) s =
      (match forEach body l1 s with
      | .panic => .panic
      | .hang => .hang
      | .val (s, e) =>
        match forEach body l2 s with
        | .panic => .panic
        | .hang => .hang
        | .val (s, e') => .val (s, e ++ e')) := by
  induction l1 generalizing s with
  | nil =>
    simp only [List.nil_append, forEach]
    cases forEach body l2 s <;> simp
  | cons a l ih =>
    simp only [List.cons_append, forEach]
    cases body a s with
    | panic => rfl
    | hang => rfl
    | val r =>
      simp only [ih]
      cases forEach body l r.1 with
      | panic => rfl
      | hang => rfl
      | val r' =>
        simp only
        cases forEach body l2 r'.1 <;> simp

theorem forEach_map (body : α → σ → Go (σ × List Err)) (f : β → α) (l : List β) (s : σ) :
    forEach body (l.map f) s = forEach (fun b => body (f b)) l s := by
  induction l generalizing s with
  | nil => rfl
  | cons b l ih =>
    simp only [List.map_cons, forEach]
    cases body (f b) s <;> simp [ih]

theorem forEach_flatMap (body : α → σ → Go (σ × List Err)) (g : β → List α) (l : List β) (s : σ) :
    forEach body (l.flatMap g) s = forEach (fun b => forEach body (g b)) l s := by
  induction l generalizing s with
  | nil => rfl
  | cons b l ih =>
    rw [List.flatMap_cons, forEach_append, forEach]
    cases forEach body (g b) s with
    | panic => rfl
    | hang => rfl
    | val r =>
      simp only [ih]
      cases forEach (fun b => forEach body (g b)) l r.1 <;> rfl

/-- The tuples visited by `iter` on the reversed tuple, in order. -/
def visitedRev (reverse : Bool) : Tuple → List Tuple
  | [] => [[]]
  | n :: rest => (indices reverse n).flatMap (fun i => (visitedRev reverse rest).map (· ++ [i]))

/-- The tuples visited by `iter`, in order. -/
def visited (reverse : Bool) (t : Tuple) : List Tuple := visitedRev reverse t.reverse

theorem iterRev_eq (reverse : Bool) (t : Tuple) (cb : Tuple → σ → Go (σ × List Err)) (s : σ) :
    iterRev reverse t cb s = forEach cb (visitedRev reverse t) s := by
  induction t generalizing cb s with
  | nil =>
    simp only [iterRev, visitedRev, forEach]
    cases cb [] s <;> simp
  | cons n rest ih =>
    rw [iterRev, visitedRev, forEach_flatMap]
    congr 1
    funext i s
    rw [ih, forEach_map]

theorem iter_eq (reverse : Bool) (t : Tuple) (cb : Tuple → σ → Go (σ × List Err)) (s : σ) :
    iter t reverse cb s = forEach cb (visited reverse t) s := iterRev_eq _ _ _ _

end iter

/-- `0 ≤ m ≤ t` componentwise. -/
def Under (m t : Tuple) : Prop := List.Forall₂ (fun a b => 0 ≤ a ∧ a ≤ b) m t

theorem mem_indices {reverse : Bool} {n i : Int} : i ∈ indices reverse n ↔ 0 ≤ i ∧ i ≤ n := by
  have h : i ∈ (List.range (n + 1).toNat).map Int.ofNat ↔ 0 ≤ i ∧ i ≤ n := by
    simp only [List.mem_map, List.mem_range, Int.ofNat_eq_natCast]
    constructor
    · rintro ⟨k, hk, rfl⟩; omega
    · rintro ⟨h1, h2⟩; exact ⟨i.toNat, by omega, by omega⟩
  unfold indices
  cases reverse <;> simpa using h

theorem nodup_indices (reverse : Bool) (n : Int) : (indices reverse n).Nodup := by
  have h : ((List.range (n + 1).toNat).map Int.ofNat).Nodup := List.nodup_range.map (fun a b h => by simpa using h)
  unfold indices
  cases reverse
  · simpa using h
  · simpa using List.nodup_reverse.2 h

/-- The loop variable goes up, or down in reverse mode. -/
theorem indices_sorted (reverse : Bool) (n : Int) :
    (indices reverse n).Pairwise (fun i j => if reverse then j < i else i < j) := by
  have h : ((List.range (n + 1).toNat).map Int.ofNat).Pairwise (· < ·) := by
    rw [List.pairwise_map]
    exact List.pairwise_lt_range.imp (fun h => by simpa using h)
  unfold indices
  cases reverse
  · simpa using h
  · simp only [if_true]
    rw [List.pairwise_reverse]
    exact h.imp (fun h => by simpa using h)

theorem mem_visitedRev {reverse : Bool} {m t : Tuple} : m ∈ visitedRev reverse t ↔ Under m.reverse t := by
  unfold Under
  induction t generalizing m with
  | nil => simp [visitedRev]
  | cons n rest ih =>
    simp only [visitedRev, List.mem_flatMap, mem_indices, List.mem_map]
    constructor
    · rintro ⟨i, hi, b, hb, rfl⟩
      rw [List.reverse_append]
      exact .cons hi (ih.1 hb)
    · intro h
      obtain ⟨r, hr⟩ : ∃ r, m.reverse = r := ⟨_, rfl⟩
      rw [hr] at h
      cases h with
      | @cons a _ l _ h1 h2 =>
        refine ⟨a, h1, l.reverse, ih.2 (by rwa [List.reverse_reverse]), ?_⟩
        rw [← List.reverse_reverse m, hr, List.reverse_cons]

theorem forall2_reverse {α β : Type} {R : α → β → Prop} {l1 : List α} {l2 : List β} :
    List.Forall₂ R l1.reverse l2.reverse ↔ List.Forall₂ R l1 l2 := List.forall₂_reverse_iff

theorem mem_visited {reverse : Bool} {m t : Tuple} : m ∈ visited reverse t ↔ Under m t := by
  unfold visited
  rw [mem_visitedRev]
  unfold Under
  exact forall2_reverse

theorem nodup_visitedRev (reverse : Bool) (t : Tuple) : (visitedRev reverse t).Nodup := by
  induction t with
  | nil => simp [visitedRev]
  | cons n rest ih =>
    rw [visitedRev, List.nodup_flatMap]
    refine ⟨fun i _ => ih.map (fun a b h => by simpa using h), ?_⟩
    refine List.Pairwise.imp ?_ (nodup_indices reverse n)
    intro i j hij
    simp only [List.disjoint_left, Function.onFun, List.mem_map]
    rintro _ ⟨a, _, rfl⟩ ⟨b, _, h⟩
    have := List.append_inj_right' h (by simp)
    simp at this; exact hij this.symm

theorem nodup_visited (reverse : Bool) (t : Tuple) : (visited reverse t).Nodup := nodup_visitedRev _ _

/-- `m ≤ n` componentwise. -/
def Leq (m n : Tuple) : Prop := List.Forall₂ (· ≤ ·) m n

theorem Leq.snoc {a b : Tuple} {i j : Int} (h : Leq (a ++ [i]) (b ++ [j])) : Leq a b ∧ i ≤ j := by
  unfold Leq at *
  have h' := forall2_reverse.2 h
  simp only [List.reverse_append, List.reverse_cons, List.reverse_nil, List.nil_append, List.singleton_append] at h'
  cases h' with
  | cons h1 h2 => exact ⟨forall2_reverse.1 h2, h1⟩

/-- A smaller tuple comes first in forward mode and last in reverse mode. -/
theorem visited_order (reverse : Bool) (t : Tuple) :
    (visited reverse t).Pairwise (fun m n => if reverse then ¬ Leq m n else ¬ Leq n m) := by
  unfold visited
  induction t.reverse with
  | nil => simp [visitedRev]
  | cons n rest ih =>
    rw [visitedRev, List.pairwise_flatMap]
    constructor
    · intro i _
      rw [List.pairwise_map]
      refine ih.imp ?_
      intro a b h
      cases reverse
      · simp only [Bool.false_eq_true, if_false] at h ⊢
        exact fun c => h c.snoc.1
      · simp only [if_true] at h ⊢
        exact fun c => h c.snoc.1
    · refine (indices_sorted reverse n).imp ?_
      intro i j hij x hx y hy
      obtain ⟨a, _, rfl⟩ := List.mem_map.1 hx
      obtain ⟨b, _, rfl⟩ := List.mem_map.1 hy
      cases reverse
      · simp only [Bool.false_eq_true, if_false] at hij ⊢
        exact fun c => absurd c.snoc.2 (by omega)
      · simp only [if_true] at hij ⊢
        exact fun c => absurd c.snoc.2 (by omega)

/-! ## Natural number exponents -/

/-- A tuple of natural numbers as a tuple of ints. -/
def up (t : List Nat) : Tuple := t.map Int.ofNat

theorem up_inj {a b : List Nat} (h : up a = up b) : a = b := by
  unfold up at h
  exact List.map_injective_iff.2 (fun x y h => by simpa using h) h

@[simp] theorem up_length (a : List Nat) : (up a).length = a.length := by simp [up]

theorem under_up {m : Tuple} {t : List Nat} : Under m (up t) ↔ ∃ b, Below b t ∧ m = up b := by
  unfold Under Below up
  induction t generalizing m with
  | nil =>
    constructor
    · intro h; cases h; exact ⟨[], .nil, rfl⟩
    · rintro ⟨b, hb, rfl⟩; cases hb; exact .nil
  | cons n ns ih =>
    constructor
    · intro h
      cases h with
      | @cons a _ m' _ h1 h2 =>
        obtain ⟨b, hb, rfl⟩ := ih.1 h2
        simp only [Int.ofNat_eq_natCast] at h1
        refine ⟨a.toNat :: b, .cons (by omega) hb, ?_⟩
        simp only [List.map_cons, Int.ofNat_eq_natCast]
        rw [Int.toNat_of_nonneg h1.1]
    · rintro ⟨b, hb, rfl⟩
      cases hb with
      | cons h1 h2 => exact .cons ⟨by simp, by simpa using h1⟩ (ih.2 ⟨_, h2, rfl⟩)

theorem leq_up {a b : List Nat} : Leq (up a) (up b) ↔ Below a b := by
  unfold Leq Below up
  rw [List.forall₂_map_left_iff, List.forall₂_map_right_iff]
  simp only [Int.ofNat_eq_natCast, Nat.cast_le]

/-- The visited tuples are those of `below`. -/
theorem visited_perm (reverse : Bool) (t : List Nat) : (visited reverse (up t)).Perm ((below t).map up) := by
  rw [List.perm_ext_iff_of_nodup (nodup_visited _ _) ((nodup_below t).map (fun a b h => up_inj h))]
  intro m
  rw [mem_visited, under_up, List.mem_map]
  constructor
  · rintro ⟨b, hb, rfl⟩; exact ⟨b, mem_below.2 hb, rfl⟩
  · rintro ⟨b, hb, rfl⟩; exact ⟨b, mem_below.1 hb, rfl⟩

theorem exists_visitedN (reverse : Bool) (t : List Nat) : ∃ l : List (List Nat), visited reverse (up t) = l.map up ∧
    l.Perm (below t) ∧ l.Nodup ∧ l.Pairwise (fun m n => if reverse then ¬ Below m n else ¬ Below n m) := by
  have hp := visited_perm reverse t
  have hdown : ∀ m ∈ visited reverse (up t), up (m.map Int.toNat) = m := by
    intro m hm
    obtain ⟨b, _, rfl⟩ := List.mem_map.1 (hp.mem_iff.1 hm)
    simp [up]
  have he : visited reverse (up t) = ((visited reverse (up t)).map (List.map Int.toNat)).map up := by
    rw [List.map_map]
    conv_lhs => rw [← List.map_id (visited reverse (up t))]
    exact List.map_congr_left (fun m hm => (hdown m hm).symm)
  refine ⟨_, he, ?_, ?_, ?_⟩
  · have := hp.map (List.map Int.toNat)
    rw [List.map_map] at this
    have hid : List.map Int.toNat ∘ up = id := by
      funext x
      have h' : Int.toNat ∘ Int.ofNat = id := by funext k; simp
      simp [up, h']
    rwa [hid, List.map_id] at this
  · have := nodup_visited reverse (up t)
    rw [he] at this
    exact List.Nodup.of_map _ this
  · have := visited_order reverse (up t)
    rw [he, List.pairwise_map] at this
    refine this.imp ?_
    intro a b h
    cases reverse
    · simp only [Bool.false_eq_true, if_false] at h ⊢
      rwa [leq_up] at h
    · simp only [if_true] at h ⊢
      rwa [leq_up] at h

theorem abs_up {t : List Nat} (h : t.sum < 2 ^ 63) : abs (up t) = t.sum := by
  have key : ∀ (t : List Nat) (s : Nat), s + t.sum < 2 ^ 63 → (up t).foldl (fun s i => wrap (s + i)) (s : Int) = ((s + t.sum : Nat) : Int) := by
    intro t
    induction t with
    | nil => intro s _; simp [up]
    | cons n ns ih =>
      intro s hs
      rw [List.sum_cons] at hs
      simp only [up, List.map_cons, List.foldl_cons, Int.ofNat_eq_natCast]
      rw [wrap_small (by omega) (by push_cast at *; omega), ← Nat.cast_add]
      have := ih (s + n) (by omega)
      rw [up] at this
      rw [this]; simp only [List.sum_cons]; congr 1; omega
  have := key t 0 (by omega)
  simpa [abs] using this

theorem sub_up {a b : List Nat} (h : Below b a) (ha : a.sum < 2 ^ 63) : sub (up a) (up b) = .ok (up (msub a b)) := by
  unfold sub
  rw [if_neg (by simp [h.length])]
  congr 1
  unfold Below at h
  induction h with
  | nil => rfl
  | @cons k n b a h h' ih =>
    rw [List.sum_cons] at ha
    simp only [up, List.map_cons, List.zipWith_cons_cons, msub, Int.ofNat_eq_natCast] at ih ⊢
    rw [ih (by omega), wrap_small (by omega) (by omega)]
    congr 1; omega

theorem multinom_up {a b : List Nat} (h : Below b a) (h20 : ∀ k ∈ a, k ≤ 20) (hs : a.sum ≤ 62) :
    multinom (up a) (up b) = .val (.ok (mchoose a b)) := by
  have key : ∀ {a b : List Nat}, Below b a → (∀ k ∈ a, k ≤ 20) → ∀ r : Nat, r * 2 ^ a.sum ≤ 2 ^ 62 →
      multinomLoop r (up a) (up b) = .val ((r * mchoose a b : Nat) : Int) := by
    intro a b h
    unfold Below at h
    induction h with
    | nil => intro _ r _; simp [multinomLoop, up, mchoose]
    | @cons k n b a h h' ih =>
      intro h20 r hr
      simp only [up, List.map_cons, multinomLoop, Int.ofNat_eq_natCast]
      rw [binom_exact h (h20 n List.mem_cons_self)]
      simp only
      rw [List.sum_cons, Nat.pow_add, ← Nat.mul_assoc] at hr
      have h2 : r * n.choose k * 2 ^ a.sum ≤ 2 ^ 62 :=
        le_trans (Nat.mul_le_mul_right _ (Nat.mul_le_mul_left _ (Nat.choose_le_two_pow n k))) hr
      have h3 : r * n.choose k ≤ 2 ^ 62 := le_trans (Nat.le_mul_of_pos_right _ (by positivity)) h2
      have h4 : ((r : Int) * (n.choose k : Int)) ≤ 2 ^ 62 := by exact_mod_cast h3
      have h5 : (0 : Int) ≤ (r : Int) * (n.choose k : Int) := by positivity
      rw [wrap_small (by omega) (by omega), ← Nat.cast_mul]
      have := ih (fun k hk => h20 k (List.mem_cons_of_mem _ hk)) (r * n.choose k) h2
      rw [up, up] at this
      rw [this, mchoose, Nat.mul_assoc]
  unfold multinom
  rw [if_neg (by simp [h.length])]
  have := key h h20 1 (by rw [Nat.one_mul]; exact Nat.pow_le_pow_right (by decide) hs)
  rw [Nat.cast_one] at this
  rw [this]; simp

theorem pow_up {K : Type} [Field K] {x : List K} {b : List Nat} (h : x.length = b.length) : pow x (up b) = .ok (mpow x b) := by
  have key : ∀ (x : List K) (b : List Nat) (r : K), powLoop r x (up b) = r * mpow x b := by
    intro x
    induction x with
    | nil => intro b r; cases b <;> simp [powLoop, mpow]
    | cons x xs ih =>
      intro b r
      cases b with
      | nil => simp [powLoop, mpow, up]
      | cons n ns =>
        simp only [up, List.map_cons, powLoop, mpow, Int.ofNat_eq_natCast, Int.toNat_natCast]
        have := ih ns (r * x ^ n)
        rw [up] at this
        rw [this]; ring
  unfold pow
  rw [if_neg (by simp [h]), key, one_mul]

/-! ## hash -/

/-- The unwrapped polynomial hash. -/
def poly (t : List Nat) : Nat := t.foldl (fun r i => 31 * r + i) 0

theorem hash_up (t : List Nat) : hash (up t) = wrap (poly t) := by
  unfold hash poly
  induction t using List.reverseRecOn with
  | nil => rfl
  | append_singleton t n ih =>
    unfold up at ih ⊢
    simp only [List.map_append, List.map_cons, List.map_nil, List.foldl_append, List.foldl_cons, List.foldl_nil]
    rw [ih]
    unfold wrap
    rw [← Int.bmod_add_bmod, Int.mul_bmod_bmod, Int.bmod_add_bmod]
    congr 1

theorem poly_lt {t : List Nat} (h : ∀ k ∈ t, k < 31) : poly t < 31 ^ t.length := by
  unfold poly
  induction t using List.reverseRecOn with
  | nil => simp
  | append_singleton t n ih =>
    have h1 := ih (fun k hk => h k (by simp [hk]))
    have h2 := h n (by simp)
    simp only [List.foldl_append, List.foldl_cons, List.foldl_nil, List.length_append, List.length_cons, List.length_nil, Nat.pow_succ]
    omega

theorem poly_inj {a b : List Nat} (hl : a.length = b.length) (ha : ∀ k ∈ a, k < 31) (hb : ∀ k ∈ b, k < 31) (h : poly a = poly b) : a = b := by
  induction a using List.reverseRecOn generalizing b with
  | nil => simpa using (List.length_eq_zero_iff.1 hl.symm).symm
  | append_singleton a n ih =>
    rcases List.eq_nil_or_concat b with rfl | ⟨b, k, rfl⟩
    · simp at hl
    · rw [List.concat_eq_append] at *
      simp only [poly, List.foldl_append, List.foldl_cons, List.foldl_nil] at h
      have h1 := ha n (by simp)
      have h2 := hb k (by simp)
      have h3 : n = k := by omega
      have h4 : poly a = poly b := by unfold poly; omega
      rw [ih (by simpa using hl) (fun x hx => ha x (by simp [hx])) (fun x hx => hb x (by simp [hx])) h4, h3]

theorem hash_inj {a b : List Nat} (hl : a.length = b.length) (h12 : a.length ≤ 12) (ha : ∀ k ∈ a, k < 31) (hb : ∀ k ∈ b, k < 31)
    (h : hash (up a) = hash (up b)) : a = b := by
  have hlt : ∀ t : List Nat, t.length ≤ 12 → (∀ k ∈ t, k < 31) → wrap (poly t : Int) = poly t := by
    intro t ht hk
    have h1 := poly_lt hk
    have h2 : 31 ^ t.length ≤ 31 ^ 12 := Nat.pow_le_pow_right (by decide) ht
    have h3 : 31 ^ 12 < 2 ^ 63 := by norm_num
    exact wrap_small (by omega) (by exact_mod_cast (by omega : poly t < 2 ^ 63))
  rw [hash_up, hash_up, hlt a h12 ha, hlt b (hl ▸ h12) hb] at h
  exact poly_inj hl ha hb (by exact_mod_cast h)

end Verif.Joint
