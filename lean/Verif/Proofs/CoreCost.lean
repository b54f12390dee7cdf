import Verif.Model.CoreCost
import Verif.Proofs.JointFP
import Verif.Proofs.MomentFP
import Verif.Proofs.Space
import Mathlib.Tactic.Linarith
import Mathlib.Tactic.Ring

/-! # Bounds for the clocked cores of `Model/CoreCost.lean` -/

namespace Verif
open Timed

/-- The cost of a sequence whose first part returns. -/
theorem Timed.bind_cost_val {α β : Type} {m : Timed α} {f : α → Timed β} {a : α} (h : m.out = .val a) : (m >>= f).cost = m.cost + (f a).cost := by
  rw [bind_cost, h]

namespace FP
open Verif.Moment (Core)
variable {F : Type} (A : Arith F)

theorem sumLoopT_cost (op : F → F → F) (term : Nat → Go F) (n i : Nat) (acc : F) :
    (sumLoopT op term n i acc).cost ≤ n ∧ ∀ v, (sumLoopT op term n i acc).out = .val v → (sumLoopT op term n i acc).cost = n := by
  induction n generalizing i acc with
  | zero => exact ⟨le_rfl, fun _ _ => rfl⟩
  | succ n ih =>
    simp only [sumLoopT, tick_bind_cost, tick_bind_out]
    rw [bind_cost, bind_out]
    simp only [free_out, free_cost]
    cases term i with
    | panic => exact ⟨by simp, fun v hv => by cases hv⟩
    | hang => exact ⟨by simp, fun v hv => by cases hv⟩
    | val t =>
      obtain ⟨h1, h2⟩ := ih (i + 1) (op acc t)
      exact ⟨by simp only; omega, fun v hv => by simp only; rw [h2 v hv]; omega⟩

theorem addLoopT_cost (count delta : F) (n : Nat) (s : Nat → F) :
    2 * (addLoopT A count delta n s).cost ≤ n * (n - 1) ∧
      ∀ v, (addLoopT A count delta n s).out = .val v → 2 * (addLoopT A count delta n s).cost = n * (n - 1) := by
  induction n generalizing s with
  | zero => exact ⟨le_rfl, fun _ _ => rfl⟩
  | succ n ih =>
    cases n with
    | zero => exact ⟨le_rfl, fun _ _ => rfl⟩
    | succ k =>
      simp only [addLoopT, tick_bind_cost, tick_bind_out]
      rw [bind_cost, bind_out]
      obtain ⟨h1, h2⟩ := sumLoopT_cost A.add (fun i => do
        let c ← coef A (k + 2) i
        pure (A.mul (A.mul c (A.pow (A.div delta count) i)) (s (k + 2 - i)))) (k + 2 - 2) 1
        (A.add (s (k + 2)) (A.mul (A.mul (A.div (A.sub count (A.ofInt 1)) (A.pow count (k + 2)))
          (A.add (A.pow (A.sub count (A.ofInt 1)) (k + 2 - 1)) (A.ofInt (MathUtil.sign (k + 2 : Nat))))) (A.pow delta (k + 2))))
      change (addEntryT A count delta s (k + 2)).cost ≤ _ at h1
      change ∀ v, (addEntryT A count delta s (k + 2)).out = .val v → (addEntryT A count delta s (k + 2)).cost = _ at h2
      have e : (k + 1 + 1) * (k + 1 + 1 - 1) = (k + 1) * k + 2 * (k + 1) := by simp; ring
      rw [e]
      cases ho : (addEntryT A count delta s (k + 2)).out with
      | panic => refine ⟨?_, fun v hv => by cases hv⟩; simp only; have : 0 ≤ (k + 1) * k := Nat.zero_le _; omega
      | hang => refine ⟨?_, fun v hv => by cases hv⟩; simp only; have : 0 ≤ (k + 1) * k := Nat.zero_le _; omega
      | val v =>
        obtain ⟨h3, h4⟩ := ih (Function.update s (k + 2) v)
        simp only [Nat.add_sub_cancel] at h3 h4
        exact ⟨by simp only; omega, fun u hu => by simp only; have := h2 v ho; have := h4 u hu; omega⟩

theorem decayLoopT_cost (d delta : F) (n : Nat) (s : Nat → F) :
    2 * (decayLoopT A d delta n s).cost ≤ n * (n - 1) ∧
      ∀ v, (decayLoopT A d delta n s).out = .val v → 2 * (decayLoopT A d delta n s).cost = n * (n - 1) := by
  induction n generalizing s with
  | zero => exact ⟨le_rfl, fun _ _ => rfl⟩
  | succ n ih =>
    cases n with
    | zero => exact ⟨le_rfl, fun _ _ => rfl⟩
    | succ k =>
      simp only [decayLoopT, tick_bind_cost, tick_bind_out]
      rw [bind_cost, bind_out]
      obtain ⟨h1, h2⟩ := sumLoopT_cost A.add (fun i => do
        let c ← coef A (k + 2) i
        pure (A.mul (A.mul (A.mul c (A.pow (A.mul d delta) i)) (A.sub (A.ofInt 1) d)) (s (k + 2 - i)))) (k + 2 - 2) 1
        (A.add (A.mul (A.sub (A.ofInt 1) d) (s (k + 2)))
          (A.mul (A.add (A.mul (A.sub (A.ofInt 1) d) (A.pow (A.neg d) (k + 2))) (A.mul d (A.pow (A.sub (A.ofInt 1) d) (k + 2)))) (A.pow delta (k + 2))))
      change (decayEntryT A d delta s (k + 2)).cost ≤ _ at h1
      change ∀ v, (decayEntryT A d delta s (k + 2)).out = .val v → (decayEntryT A d delta s (k + 2)).cost = _ at h2
      have e : (k + 1 + 1) * (k + 1 + 1 - 1) = (k + 1) * k + 2 * (k + 1) := by simp; ring
      rw [e]
      cases ho : (decayEntryT A d delta s (k + 2)).out with
      | panic => refine ⟨?_, fun v hv => by cases hv⟩; simp only; have : 0 ≤ (k + 1) * k := Nat.zero_le _; omega
      | hang => refine ⟨?_, fun v hv => by cases hv⟩; simp only; have : 0 ≤ (k + 1) * k := Nat.zero_le _; omega
      | val v =>
        obtain ⟨h3, h4⟩ := ih (Function.update s (k + 2) v)
        simp only [Nat.add_sub_cancel] at h3 h4
        exact ⟨by simp only; omega, fun u hu => by simp only; have := h2 v ho; have := h4 u hu; omega⟩

theorem removeLoopT_cost (count delta : F) (n k : Nat) (s : Nat → F) : 2 * (removeLoopT A count delta n (k + 2) s).cost ≤ n * (n + 2 * k + 1) := by
  induction n generalizing k s with
  | zero => exact Nat.zero_le _
  | succ n ih =>
    simp only [removeLoopT, tick_bind_cost]
    rw [bind_cost]
    obtain ⟨h1, -⟩ := sumLoopT_cost A.sub (fun i => do
      let c ← coef A (k + 2) i
      pure (A.mul (A.mul c (A.pow (A.div delta (A.add count (A.ofInt 1))) i)) (s (k + 2 - i)))) (k + 2 - 2) 1
      (A.sub (s (k + 2)) (A.mul (A.mul (A.div count (A.pow (A.add count (A.ofInt 1)) (k + 2)))
        (A.add (A.pow count (k + 2 - 1)) (A.ofInt (MathUtil.sign (k + 2 : Nat))))) (A.pow delta (k + 2))))
    change (removeEntryT A count delta s (k + 2)).cost ≤ _ at h1
    have e : (n + 1) * (n + 1 + 2 * k + 1) = n * (n + 2 * (k + 1) + 1) + 2 * (k + 1) := by ring
    rw [e]
    have h0 : 0 ≤ n * (n + 2 * (k + 1) + 1) := Nat.zero_le _
    cases ho : (removeEntryT A count delta s (k + 2)).out with
    | panic => simp only; omega
    | hang => simp only; omega
    | val v =>
      have h3 := ih (k + 1) (Function.update s (k + 2) v)
      simp only at h3 ⊢
      rw [show k + 2 + 1 = k + 1 + 2 from rfl]
      omega

theorem pushAddT_cost (c : Core F) (x : F) : 2 * (pushAddT A c x).cost ≤ (c.len - 1) * (c.len - 1 - 1) ∧
    ∀ r, (pushAddT A c x).out = .val r → 2 * (pushAddT A c x).cost = (c.len - 1) * (c.len - 1 - 1) := by
  have tail : ∀ {α β : Type} (m : Timed α) (f : α → Go β) , (m >>= fun a => free (f a)).cost = m.cost := by
    intro α β m f
    rw [bind_cost]; cases m.out <;> simp
  have tailv : ∀ {α β : Type} {m : Timed α} {f : α → Go β} {r : β}, (m >>= fun a => free (f a)).out = .val r → ∃ a, m.out = .val a := by
    intro α β m f r h
    rw [bind_out] at h
    obtain ⟨a, ha, -⟩ := Go.bind_eq_val.1 h
    exact ⟨a, ha⟩
  unfold pushAddT
  rw [tail _ (fun c => Go.val (c, none))]
  cases c.decay with
  | none =>
    simp only
    unfold addT
    rw [tail]
    obtain ⟨h1, h2⟩ := addLoopT_cost A (A.ofInt (c.count + 1)) (A.sub x c.mean) (c.len - 1) c.sums
    refine ⟨h1, fun r hr => ?_⟩
    obtain ⟨a, ha⟩ := tailv (f := fun c => Go.val (c, none)) hr
    obtain ⟨b, hb⟩ := tailv ha
    exact h2 b hb
  | some d =>
    simp only
    unfold addDecayT
    simp only
    rw [tail]
    obtain ⟨h1, h2⟩ := decayLoopT_cost A (if c.count + 1 = 1 then A.ofInt 1 else d) (A.sub x c.mean) (c.len - 1) c.sums
    refine ⟨h1, fun r hr => ?_⟩
    obtain ⟨a, ha⟩ := tailv (f := fun c => Go.val (c, none)) hr
    obtain ⟨b, hb⟩ := tailv ha
    exact h2 b hb

theorem removeT_cost (c : Core F) (x : F) : (removeT A c x).cost ≤ (c.len - 1) * (c.len - 1 - 1) / 2 + c.len := by
  unfold removeT
  split
  · simp only
    rw [bind_cost]
    have h := removeLoopT_cost A (A.ofInt (c.count - 1)) (A.sub x (A.sub c.mean (A.div (A.sub x c.mean) (A.ofInt (c.count - 1))))) (c.len - 2) 0 c.sums
    have e : (c.len - 2) * (c.len - 2 + 2 * 0 + 1) ≤ (c.len - 1) * (c.len - 1 - 1) := by
      rcases Nat.lt_or_ge c.len 2 with h | h
      · rw [Nat.sub_eq_zero_of_le h.le]; simp
      · obtain ⟨m, hm⟩ := Nat.exists_eq_add_of_le h
        rw [hm]
        simp only [Nat.add_sub_cancel_left]
        rw [show 2 + m - 1 = m + 1 by omega]
        simp only [Nat.add_sub_cancel]
        nlinarith
    simp only [Nat.zero_add] at h
    split
    · simp only [free_cost]; omega
    · omega
  · simp only [ticks_bind_cost, free_cost]; omega

/-- All of `Push`, for a core whose largest exponent is at most `K`. -/
theorem pushT_cost (c : Core F) (x : F) {K : Nat} (hK : c.len ≤ K + 1) : (pushT A c x).cost ≤ K ^ 2 + K + 1 := by
  have hadd : ∀ c' : Core F, c'.len = c.len → (pushAddT A c' x).cost ≤ (c.len - 1) * (c.len - 1 - 1) / 2 := by
    intro c' h
    have := (pushAddT_cost A c' x).1
    rw [h] at this; omega
  have hm : (c.len - 1) * (c.len - 1 - 1) ≤ K * (K - 1) := Nat.mul_le_mul (by omega) (by omega)
  have hk : K * (K - 1) ≤ K ^ 2 := by rw [pow_two]; exact Nat.mul_le_mul_left _ (Nat.sub_le _ _)
  have hlen : ∀ (d : Core F) (y : F) (r : Core F), (removeT A d y).out = .val r → r.len = d.len := by
    intro d y r h
    unfold removeT at h
    split at h
    · simp only [bind_out] at h
      obtain ⟨s, -, h⟩ := Go.bind_eq_val.1 h
      simp only [free_out] at h
      injection h with h; rw [← h]
    · simp only [ticks_bind_out, free_out] at h
      injection h with h; rw [← h]
  unfold pushT
  split
  · have he : (evictT A c).cost ≤ (c.len - 1) * (c.len - 1 - 1) / 2 + c.len ∧ ∀ c', (evictT A c).out = .val (.ok c') → c'.len = c.len := by
      unfold evictT
      split
      · rw [bind_cost, bind_out]
        simp only [free_out, free_cost]
        cases c.queue.get with
        | panic => exact ⟨by simp, fun _ h => by cases h⟩
        | hang => exact ⟨by simp, fun _ h => by cases h⟩
        | val g =>
          cases g with
          | error e => exact ⟨by simp, fun _ h => by cases h⟩
          | ok p =>
            constructor
            · simp only
              rw [bind_cost]
              have := removeT_cost A { c with queue := p.2 } p.1
              simp only at this
              split
              · simp only [free_cost]; omega
              · omega
            · intro c' h
              change (removeT A { c with queue := p.2 } p.1 >>= fun c => free (.val (Except.ok (ε := Err) c))).out = _ at h
              rw [bind_out] at h
              obtain ⟨r, hr, h⟩ := Go.bind_eq_val.1 h
              simp only [free_out] at h
              injection h with h; injection h with h
              rw [← h, hlen _ _ _ hr]
      · exact ⟨by simp, fun c' h => by injection h with h; injection h with h; rw [h]⟩
    have key : (evictT A c >>= fun r => (match r with
        | .error e => free (.val (c, some e))
        | .ok c => free (c.queue.put x) >>= fun p => (match p with
          | .error e => free (.val (c, some e))
          | .ok q => pushAddT A { c with queue := q } x) : Timed (Core F × Option Err))).cost ≤
        ((c.len - 1) * (c.len - 1 - 1) / 2 + c.len) + (c.len - 1) * (c.len - 1 - 1) / 2 := by
      refine bind_cost_le he.1 fun r hr => ?_
      cases r with
      | error e => simp
      | ok c' =>
        simp only
        refine (bind_cost_le (x := 0) (y := (c.len - 1) * (c.len - 1 - 1) / 2) (by simp) fun p hp => ?_).trans (by omega)
        cases p with
        | error e => simp
        | ok q => exact hadd _ (he.2 c' hr)
    refine key.trans ?_
    omega
  · exact (hadd c rfl).trans (by omega)

end FP

namespace Joint
variable {σ : Type}

theorem forEachT_cost {α : Type} {body : α → σ → Timed (σ × List Err)} {B : Nat} (l : List α) (h : ∀ a ∈ l, ∀ s, (body a s).cost ≤ B) (s : σ) :
    (forEachT body l s).cost ≤ l.length * (1 + B) := by
  induction l generalizing s with
  | nil => exact Nat.zero_le _
  | cons a l ih =>
    simp only [forEachT, tick_bind_cost, List.length_cons]
    have h1 : (body a s >>= fun r => forEachT body l r.1 >>= fun q => free (.val (q.1, r.2 ++ q.2))).cost ≤ B + l.length * (1 + B) := by
      refine bind_cost_le (h a List.mem_cons_self s) fun r _ => ?_
      have := ih (fun a ha => h a (List.mem_cons_of_mem _ ha)) r.1
      refine (bind_cost_le this (y := 0) fun q _ => by simp).trans (by omega)
    rw [Nat.add_mul, Nat.one_mul]
    omega

/-- `p(m)` of complexity.md. -/
def pOf (t : Tuple) : Nat := (t.map fun k => (k + 1).toNat).prod

theorem pOf_pos {t : Tuple} (h : ∀ k ∈ t, 0 ≤ k) : 0 < pOf t := by
  unfold pOf
  induction t with
  | nil => simp
  | cons k t ih =>
    simp only [List.map_cons, List.prod_cons]
    have := h k List.mem_cons_self
    exact Nat.mul_pos (by omega) (ih fun k hk => h k (List.mem_cons_of_mem _ hk))

theorem pOf_under {a t : Tuple} (h : Under a t) : pOf a ≤ pOf t := by
  unfold pOf
  induction h with
  | nil => exact le_rfl
  | cons h _ ih =>
    simp only [List.map_cons, List.prod_cons]
    exact Nat.mul_le_mul (by omega) ih

theorem pOf_reverse (t : Tuple) : pOf t.reverse = pOf t := by
  unfold pOf; rw [List.map_reverse, List.prod_reverse]

theorem iterRevT_cost (reverse : Bool) (t : Tuple) (h0 : ∀ k ∈ t, 0 ≤ k) {cb : Tuple → σ → Timed (σ × List Err)} {B : Nat}
    (h : ∀ a ∈ visitedRev reverse t, ∀ s, (cb a s).cost ≤ B) (s : σ) : (iterRevT reverse t cb s).cost ≤ pOf t * (B + 2 * t.length) := by
  induction t generalizing cb B s with
  | nil => simpa [pOf, iterRevT] using h [] (by simp [visitedRev]) s
  | cons n rest ih =>
    have hpos : 0 < pOf rest := pOf_pos fun k hk => h0 k (List.mem_cons_of_mem _ hk)
    have hl : (indices reverse n).length = (n + 1).toNat := by unfold indices; cases reverse <;> simp
    have := forEachT_cost (B := pOf rest * (1 + B + 2 * rest.length)) (indices reverse n) (body := fun i s =>
      iterRevT reverse rest (fun xs s => tick >>= fun _ => cb (xs ++ [i]) s) s) (fun i hi s =>
        ih (fun k hk => h0 k (List.mem_cons_of_mem _ hk)) (fun a ha s => by
          rw [tick_bind_cost]
          have := h (a ++ [i]) (by rw [visitedRev]; exact List.mem_flatMap.2 ⟨i, hi, List.mem_map.2 ⟨a, ha, rfl⟩⟩) s
          omega) s) s
    rw [hl] at this
    refine this.trans ?_
    have e : pOf (n :: rest) = (n + 1).toNat * pOf rest := by simp [pOf]
    rw [e, Nat.mul_assoc]
    refine Nat.mul_le_mul_left _ ?_
    rw [List.length_cons]
    nlinarith

theorem iterT_cost {t : Tuple} (reverse : Bool) (h0 : ∀ k ∈ t, 0 ≤ k) {cb : Tuple → σ → Timed (σ × List Err)} {B : Nat}
    (h : ∀ a, Under a t → ∀ s, (cb a s).cost ≤ B) (s : σ) : (iterT t reverse cb s).cost ≤ pOf t * (B + 2 * t.length) := by
  have := iterRevT_cost reverse t.reverse (fun k hk => h0 k (List.mem_reverse.1 hk)) (cb := cb) (B := B)
    (fun a ha s => h a (mem_visited (reverse := reverse) |>.1 ha) s) s
  rwa [pOf_reverse, List.length_reverse] at this

/-- All maps with the keys of the tuples `ts` have this many keys. -/
noncomputable def keyCountOf (ts : List Tuple) : Nat := {k | keyOf ts k}.ncard

theorem KeyInv.keyCount {F : Type} {ts : List Tuple} {m : Map F} (h : KeyInv (keyOf ts) m) : m.keyCount = keyCountOf ts := by
  unfold Map.keyCount keyCountOf
  congr 1
  ext k
  exact h k

/-- The keys as a list. -/
def keyList (ts : List Tuple) : List Int := ts.flatMap fun t => (visited false t).map hash

theorem keyCountOf_eq (ts : List Tuple) : keyCountOf ts = (keyList ts).toFinset.card := by
  unfold keyCountOf
  rw [← Set.ncard_coe_finset]
  congr 1
  ext k
  simp only [Set.mem_setOf_eq, keyOf, List.coe_toFinset, keyList, List.mem_flatMap, List.mem_map, mem_visited]

theorem keyCountOf_le {ts : List Tuple} {a : Nat} (h : ∀ t ∈ ts, pOf t ≤ a) : keyCountOf ts ≤ ts.length * a := by
  rw [keyCountOf_eq]
  refine (List.toFinset_card_le _).trans ?_
  unfold keyList
  induction ts with
  | nil => simp
  | cons t ts ih =>
    simp only [List.flatMap_cons, List.length_append, List.length_map, visited_length, List.length_cons]
    have h1 := h t List.mem_cons_self
    have h2 := ih fun t ht => h t (List.mem_cons_of_mem _ ht)
    unfold pOf at h1
    rw [Nat.add_mul, Nat.one_mul]
    omega

end Joint

namespace JFP
open Verif.Joint (Tuple Map Core Under KeyInv keyOf pOf keyCountOf)
open Verif.FP (Arith)

variable {F : Type} (A : Arith F)

theorem visitT_cost (r : Rule F) (delta : List F) (sums : Map F) (a b : Tuple) (hl : a.length = b.length) (ns : Map F) :
    (visitT A r delta sums a b ns).cost ≤ 1 + 6 * b.length := by
  unfold visitT
  rw [ticks_bind_cost]
  cases pow A delta b with
  | error e => simp only [free_cost]; omega
  | ok dp =>
    simp only
    split
    · simp only [free_cost]; omega
    · split
      · simp only [free_cost]; omega
      · simp only [visitPartT, ticks_bind_cost, free_cost]; omega

theorem updateTupleT_cost {n : Nat} (r : Rule F) (rev : Bool) (delta : List F) (sums : Map F) {t : Tuple} (ht : TOK n t) (ns : Map F) :
    (updateTupleT A r rev delta sums t ns).cost ≤ pOf t ^ 2 * (2 + 11 * n) := by
  have h0 : ∀ k ∈ t, 0 ≤ k := fun k hk => (ht.2 k hk).1
  have hp := Joint.pOf_pos h0
  have := Joint.iterT_cost rev h0 (B := pOf t * (2 + 9 * n)) (cb := fun a ns => ticks (1 + a.length) >>= fun _ =>
    Joint.iterT a false (visitT A r delta sums a) (Map.set ns (Joint.hash a) (A.ofInt 0))) (fun a ha s => by
      have hal : a.length = n := (under_length ha).trans ht.1
      have ha0 : ∀ k ∈ a, 0 ≤ k := fun k hk => by obtain ⟨j, -, h, -⟩ := under_mem ha k hk; exact h
      rw [ticks_bind_cost]
      have h1 := Joint.iterT_cost false ha0 (B := 1 + 6 * n) (cb := visitT A r delta sums a) (fun b hb s => by
        have hbl : b.length = n := (under_length hb).trans hal
        have := visitT_cost A r delta sums a b (hal.trans hbl.symm) s
        rwa [hbl] at this) (Map.set s (Joint.hash a) (A.ofInt 0))
      have h2 := Joint.pOf_under ha
      rw [hal] at h1 ⊢
      have h3 : pOf a * (1 + 6 * n + 2 * n) ≤ pOf t * (1 + 8 * n) := Nat.mul_le_mul h2 (by omega)
      nlinarith) ns
  refine this.trans ?_
  rw [ht.1]
  nlinarith [Nat.mul_le_mul hp hp, Nat.mul_le_mul (Nat.le_mul_self (pOf t)) (le_refl (2 * n))]

/-- The bound for one tuple. -/
def perTuple (n a : Nat) : Nat := 1 + a ^ 2 * (2 + 11 * n)

theorem updateAllT_cost {n a : Nat} (r : Rule F) (delta : List F) (sums : Map F) (ts : List Tuple) (hts : ∀ t ∈ ts, TOK n t)
    (ha : ∀ t ∈ ts, pOf t ≤ a) (ns : Map F) : (updateAllT A r delta sums ts ns).cost ≤ ts.length * perTuple n a := by
  induction ts generalizing ns with
  | nil => exact Nat.zero_le _
  | cons t ts ih =>
    have ih' := ih (fun t ht => hts t (List.mem_cons_of_mem _ ht)) (fun t ht => ha t (List.mem_cons_of_mem _ ht))
    simp only [updateAllT, tick_bind_cost, List.length_cons, Nat.add_mul, Nat.one_mul]
    have h1 := updateTupleT_cost A r true delta sums (hts t List.mem_cons_self) ns
    have h2 : pOf t ^ 2 * (2 + 11 * n) ≤ a ^ 2 * (2 + 11 * n) := Nat.mul_le_mul_right _ (Nat.pow_le_pow_left (ha t List.mem_cons_self) 2)
    have := bind_cost_le (m := updateTupleT A r true delta sums t ns) (f := fun u => (match u with
      | (ns, []) => updateAllT A r delta sums ts ns
      | (ns, e :: _) => free (.val (ns, some e)) : Timed (Map F × Option Err))) (h1.trans h2) (y := ts.length * perTuple n a) (fun u _ => by
        obtain ⟨ns', e⟩ := u
        cases e with
        | nil => exact ih' ns'
        | cons => simp)
    refine (Nat.add_le_add_left this 1).trans ?_
    unfold perTuple
    omega

theorem finishT_cost {n a : Nat} (r : Rule F) (delta : List F) (hδ : delta.length = n) (c : Core F) (hts : ∀ t ∈ c.tuples, TOK n t)
    (ha : ∀ t ∈ c.tuples, pOf t ≤ a) (hk : KeyInv (keyOf c.tuples) c.newSums) :
    (finishT A r delta c).cost ≤ c.tuples.length * perTuple n a + keyCountOf c.tuples := by
  unfold finishT
  refine bind_cost_le (updateAllT_cost A r delta c.sums c.tuples hts ha c.newSums) fun u hu => ?_
  rw [updateAllT_out] at hu
  obtain ⟨ns', e1, h1⟩ := updateAll_val A hts hδ (keeps_keys A c.tuples r delta c.sums) c.tuples (fun t ht => ht) c.newSums hk
  rw [e1] at hu; cases hu
  simp only [ticks_bind_cost, free_cost, h1.keyCount]
  omega

theorem pushAddT_cost {n a : Nat} (c : Core F) (xs : List F) (hx : xs.length = n) (hm : c.means.length = n) (hts : ∀ t ∈ c.tuples, TOK n t)
    (ha : ∀ t ∈ c.tuples, pOf t ≤ a) (hk : KeyInv (keyOf c.tuples) c.newSums) :
    (pushAddT A c xs).cost ≤ n + (c.tuples.length * perTuple n a + keyCountOf c.tuples) := by
  have hδ : (List.zipWith (fun x m => A.sub x m) xs c.means).length = n := by simp [hx, hm]
  unfold pushAddT
  split
  · unfold addT
    rw [ticks_bind_cost, hm]
    refine Nat.add_le_add_left ?_ n
    refine finishT_cost A _ _ hδ { c with count := _, means := _ } ?_ ?_ ?_ <;> assumption
  · unfold addDecayT
    rw [ticks_bind_cost, hm]
    refine Nat.add_le_add_left ?_ n
    refine finishT_cost A _ _ hδ { c with count := _, means := _ } ?_ ?_ ?_ <;> assumption

theorem removeAllT_cost {n a : Nat} {ts : List Tuple} (hts : ∀ t ∈ ts, TOK n t) (ha : ∀ t ∈ ts, pOf t ≤ a) (r : Rule F) (delta : List F)
    (hδ : delta.length = n) (l : List Tuple) (hl : ∀ t ∈ l, t ∈ ts) (sums ns : Map F) (hk : KeyInv (keyOf ts) ns) :
    (removeAllT A r delta l sums ns).cost ≤ l.length * (perTuple n a + keyCountOf ts) ∧
      l.length * keyCountOf ts ≤ (removeAllT A r delta l sums ns).cost := by
  induction l generalizing sums ns with
  | nil => simp [removeAllT]
  | cons t l ih =>
    obtain ⟨n1, e1, h1⟩ := updateTuple_val A hts hδ (keeps_keys A ts r delta sums) false (hl t List.mem_cons_self) ns hk
    obtain ⟨i1, i2⟩ := ih (fun t ht => hl t (List.mem_cons_of_mem _ ht)) (Map.copy sums n1) n1 h1
    have h3 := updateTupleT_cost A r false delta sums (hts t (hl t List.mem_cons_self)) ns
    have h4 : pOf t ^ 2 * (2 + 11 * n) ≤ a ^ 2 * (2 + 11 * n) :=
      Nat.mul_le_mul_right _ (Nat.pow_le_pow_left (ha t (hl t List.mem_cons_self)) 2)
    simp only [removeAllT, tick_bind_cost]
    rw [bind_cost_val ((updateTupleT_out A r false delta sums t ns).trans e1)]
    simp only [ticks_bind_cost, h1.keyCount, List.length_cons, Nat.add_mul, Nat.one_mul]
    unfold perTuple at i1 ⊢
    rw [Nat.mul_add] at i1
    constructor
    · rw [Nat.mul_add]; omega
    · omega

theorem removeT_cost {n a : Nat} (c : Core F) (xs : List F) (hx : xs.length = n) (hm : c.means.length = n) (hts : ∀ t ∈ c.tuples, TOK n t)
    (ha : ∀ t ∈ c.tuples, pOf t ≤ a) (hk : KeyInv (keyOf c.tuples) c.sums) (hk' : KeyInv (keyOf c.tuples) c.newSums) :
    (removeT A c xs).cost ≤ n + c.tuples.length * (perTuple n a + keyCountOf c.tuples) + 2 * keyCountOf c.tuples ∧
      (1 < c.count → c.tuples.length * keyCountOf c.tuples ≤ (removeT A c xs).cost) := by
  unfold removeT
  split
  · rename_i hc
    have := removeAllT_cost A hts ha (removeRule A (A.ofInt (c.count - 1)))
      (List.zipWith (fun x m => A.sub x m) xs (List.zipWith (fun x m => A.sub m (A.div (A.sub x m) (A.ofInt (c.count - 1)))) xs c.means))
      (by simp [hx, hm]) c.tuples (fun t ht => ht) c.sums c.newSums hk'
    simp only [ticks_bind_cost]
    rw [bind_cost]
    constructor
    · split
      · simp only [free_cost]; omega
      · omega
    · intro _; omega
  · rename_i hc
    simp only [ticks_bind_cost, free_cost, hk.keyCount, hk'.keyCount, hm]
    exact ⟨by omega, fun h => absurd h (by omega)⟩

end JFP
end Verif

namespace Verif.JFP
open Timed
open Verif.Joint (Tuple Map Core Config Under KeyInv keyOf pOf keyCountOf)
open Verif.FP (Arith)
open Verif.Spec

variable {F : Type} (A : Arith F)

theorem le_foldr_max (ts : List Tuple) : ∀ t ∈ ts, pOf t ≤ (ts.map pOf).foldr max 0 := by
  induction ts with
  | nil => intro t ht; cases ht
  | cons u us ih =>
    intro t ht
    simp only [List.map_cons, List.foldr_cons]
    rcases List.mem_cons.1 ht with rfl | h
    · exact le_max_left _ _
    · exact (ih t h).trans (le_max_right _ _)

/-- What `NewCore` guarantees about the sizes. -/
theorem sizes [GoOrd F] {cfg : Config F} {c : Core F} (hn : newCore A cfg = .val (.ok c)) (hs : ∀ t ∈ cfg.sums.getD [], ∀ k ∈ t, k ≤ 65)
    {d : Nat} (hv : Joint.varsOf cfg = d) {a : Nat} (ha : ∀ t ∈ cfg.sums.getD [], pOf t ≤ a) :
    (∀ t ∈ cfg.sums.getD [], TOK d t) ∧ 2 ≤ d ∧ ∀ k ≤ (cfg.sums.getD []).length * a,
      (cfg.sums.getD []).length * perTuple d a + k ≤ 13 * ((cfg.sums.getD []).length * d * a ^ 2) := by
  obtain ⟨n', w', -, hv', h2, hts, -⟩ := newCore_ok A hn
  have e1 : n' = d := by rw [hv] at hv'; exact_mod_cast hv'.symm
  subst e1
  refine ⟨fun t ht => ⟨(hts t ht).1, fun k hk => ⟨(hts t ht).2.1 k hk, hs t ht k hk⟩⟩, h2, fun k hk => ?_⟩
  cases hl : cfg.sums.getD [] with
  | nil => rw [hl] at hk; simp at hk ⊢; exact hk
  | cons t ts =>
    have htm : t ∈ cfg.sums.getD [] := by rw [hl]; exact List.mem_cons_self
    have hp : 2 ≤ a := by
      refine le_trans ?_ (ha t htm)
      obtain ⟨-, h0, h1⟩ := hts t htm
      have hex : ∃ k ∈ t, 1 ≤ k := by
        by_contra hne
        push Not at hne
        refine h1 ?_
        have hz : ∀ k ∈ t, k = 0 := fun k hk => by have := h0 k hk; have := hne k hk; omega
        unfold Joint.abs
        have : ∀ l : Tuple, (∀ k ∈ l, k = 0) → List.foldl (fun s i => MathUtil.wrap (s + i)) 0 l = 0 := by
          intro l hl
          induction l with
          | nil => rfl
          | cons k l ih =>
            rw [List.foldl_cons, hl k List.mem_cons_self]
            exact ih fun k hk => hl k (List.mem_cons_of_mem _ hk)
        exact this t hz
      clear h1 htm hl hk
      unfold pOf
      induction t with
      | nil => obtain ⟨k, hk, -⟩ := hex; cases hk
      | cons j t ih =>
        simp only [List.map_cons, List.prod_cons]
        have hj := h0 j List.mem_cons_self
        have hpos := Joint.pOf_pos fun k hk => h0 k (List.mem_cons_of_mem j hk)
        unfold pOf at hpos
        obtain ⟨k, hk, h1⟩ := hex
        rcases List.mem_cons.1 hk with rfl | hk
        · have : 2 ≤ (k + 1).toNat := by omega
          nlinarith
        · have h3 := ih (fun k hk => h0 k (List.mem_cons_of_mem _ hk)) ⟨k, hk, h1⟩
          have : 1 ≤ (j + 1).toNat := by omega
          nlinarith
    rw [hl] at hk
    generalize (t :: ts).length = T at hk ⊢
    have ha2 : 2 * a ≤ a ^ 2 := by nlinarith
    have hda : 2 * a ^ 2 ≤ n' * a ^ 2 := Nat.mul_le_mul_right _ h2
    have h1 : perTuple n' a + a ≤ 13 * (n' * a ^ 2) := by
      unfold perTuple
      have e : a ^ 2 * (2 + 11 * n') = 2 * a ^ 2 + 11 * (n' * a ^ 2) := by ring
      rw [e]
      omega
    calc T * perTuple n' a + k ≤ T * perTuple n' a + T * a := Nat.add_le_add_left hk _
      _ = T * (perTuple n' a + a) := by ring
      _ ≤ T * (13 * (n' * a ^ 2)) := Nat.mul_le_mul_left _ h1
      _ = 13 * (T * n' * a ^ 2) := by ring

variable {d w a : Nat} {dec : Option F} {ts : List Tuple} {xs : List (List F)} {c : Core F}

/-- What making room costs, and what is left of the bookkeeping. -/
theorem evictT_cost (hts : ∀ t ∈ ts, TOK d t) (ha : ∀ t ∈ ts, pOf t ≤ a) (B : Book d w dec ts xs c) (hw : w ≠ 0) :
    (evictT A c).cost ≤ d + ts.length * (perTuple d a + keyCountOf ts) + 2 * keyCountOf ts ∧
      (∀ r, (evictT A c).out = .val r → r.1.means.length = d ∧ r.1.tuples = ts ∧ KeyInv (keyOf ts) r.1.newSums) ∧
      (2 ≤ w → w ≤ xs.length → ts.length * keyCountOf ts ≤ (evictT A c).cost) := by
  obtain rfl := B.tup
  have hk := B.keys
  have hk' := B.nkeys
  have hlen : c.queue.len = (lastN w xs).length := by unfold Ring.len; rw [B.q hw]
  unfold evictT
  split
  · rename_i hf
    rw [hlen, B.win] at hf
    have hf' : (lastN w xs).length = w := by exact_mod_cast hf
    obtain ⟨y, ys, hy⟩ : ∃ y ys, lastN w xs = y :: ys := by
      cases h : lastN w xs with
      | nil => rw [h] at hf'; simp at hf'; omega
      | cons y ys => exact ⟨y, ys, rfl⟩
    obtain ⟨q, hq⟩ : ∃ q, c.queue.get = .val (.ok (y, q)) := by
      refine ⟨⟨c.queue.cap, ys, c.queue.disposed⟩, ?_⟩
      have h1 := B.q hw
      rw [hy] at h1
      unfold Ring.get
      rw [B.live, h1]
      simp
    have hyl : y.length = d := by
      refine B.xlen y (List.mem_of_mem_drop (i := xs.length - w) ?_)
      have : y ∈ lastN w xs := by rw [hy]; exact List.mem_cons_self
      rwa [lastN, if_neg hw] at this
    have hr := removeT_cost A { c with queue := q } y hyl B.mlen hts ha hk hk'
    rw [bind_cost_val (a := .ok (y, q)) hq, bind_out]
    simp only [free_out, free_cost, hq, Nat.zero_add]
    refine ⟨hr.1, ?_, fun h2 hfull => hr.2 ?_⟩
    · intro r h
      change (removeT A { c with queue := q } y).out = _ at h
      rw [removeT_out] at h
      unfold remove at h
      simp only at h
      split at h
      · obtain ⟨s', n', e1, h1⟩ := removeAll_val A hts (r := removeRule A (A.ofInt (c.count - 1)))
          (δ := List.zipWith (fun x m => A.sub x m) y (List.zipWith (fun x m => A.sub m (A.div (A.sub x m) (A.ofInt (c.count - 1)))) y c.means))
          (by simp [hyl, B.mlen]) (P := fun _ ns => KeyInv (keyOf c.tuples) ns) (fun sums => keeps_keys A c.tuples _ _ sums) (fun _ _ h => h) c.tuples
          (fun t ht => ht) c.sums c.newSums B.nkeys
        rw [e1] at h
        injection h with h; subst h
        exact ⟨by simp [hyl, B.mlen], rfl, h1⟩
      · injection h with h; subst h
        exact ⟨by simp [B.mlen], rfl, zeroMap_keys A B.nkeys⟩
    · simp only [B.count]
      have : 2 ≤ (lastN w xs).length := by omega
      exact_mod_cast this
  · rename_i hf
    refine ⟨by simp, ?_, fun h2 hfull => ?_⟩
    · intro r h
      injection h with h; subst h
      exact ⟨B.mlen, B.tup, B.nkeys⟩
    · refine absurd ?_ hf
      rw [hlen, B.win, lastN, if_neg hw, List.length_drop]
      exact_mod_cast (by omega : xs.length - (xs.length - w) = w)

theorem pushT_eq_window (hw : w ≠ 0) (B : Book d w dec ts xs c) {x : List F} (hx : x.length = d) : pushT A c x = (evictT A c >>= fun r => (match r with
    | (c, some e) => free (.val (c, some e))
    | (c, none) => pushPutT A c x : Timed (Core F × Option Err))) := by
  unfold pushT
  rw [if_neg (by rw [hx, B.mlen]; simp), if_pos (by rw [B.win]; exact_mod_cast hw)]
  rfl

theorem pushT_cost (hts : ∀ t ∈ ts, TOK d t) (ha : ∀ t ∈ ts, pOf t ≤ a)
    (hbig : ∀ k ≤ ts.length * a, ts.length * perTuple d a + k ≤ 13 * (ts.length * d * a ^ 2)) (hd : 2 ≤ d) (B : Book d w dec ts xs c) (x : List F) :
    (pushT A c x).cost ≤ 2 * d + 27 * (ts.length * d * a ^ 2) + ts.length * c.sums.keyCount := by
  have hK := Joint.keyCountOf_le ha
  rw [B.keys.keyCount]
  by_cases hx : x.length = d
  · have hb := hbig _ hK
    have h2K : 2 * keyCountOf ts ≤ ts.length * d * a ^ 2 := by
      refine (Nat.mul_le_mul_left 2 hK).trans ?_
      have h1 : a ≤ a ^ 2 := by nlinarith [Nat.le_mul_self a]
      calc 2 * (ts.length * a) = ts.length * (2 * a) := by ring
        _ ≤ ts.length * (d * a ^ 2) := Nat.mul_le_mul_left _ (Nat.mul_le_mul hd h1)
        _ = ts.length * d * a ^ 2 := by ring
    by_cases hw : w = 0
    · unfold pushT
      rw [if_neg (by rw [hx, B.mlen]; simp), if_neg (by rw [B.win, hw]; simp)]
      have hk' : KeyInv (keyOf c.tuples) c.newSums := by rw [B.tup]; exact B.nkeys
      have := pushAddT_cost A c x hx B.mlen (by rw [B.tup]; exact hts) (by rw [B.tup]; exact ha) hk'
      rw [B.tup] at this
      omega
    · rw [pushT_eq_window A hw B hx]
      obtain ⟨e1, e2, -⟩ := evictT_cost A hts ha B hw
      refine (bind_cost_le e1 (y := d + (ts.length * perTuple d a + keyCountOf ts)) fun r hr => ?_).trans ?_
      · obtain ⟨h1, h2, h3⟩ := e2 r hr
        obtain ⟨c', e⟩ := r
        cases e with
        | some e => simp
        | none =>
          simp only at h1 h2 h3 ⊢
          unfold pushPutT
          refine (bind_cost_le (x := 0) (y := d + (ts.length * perTuple d a + keyCountOf ts)) (by simp) fun p _ => ?_).trans (by omega)
          cases p with
          | error e => simp
          | ok q =>
            subst h2
            exact pushAddT_cost A { c' with queue := q } x hx h1 hts ha h3
      · rw [Nat.mul_add]
        omega
  · unfold pushT
    rw [if_pos (by rw [B.mlen]; exact hx)]
    simp

theorem pushT_cost_ge (hts : ∀ t ∈ ts, TOK d t) (B : Book d w dec ts xs c) (h2 : 2 ≤ w) (hfull : w ≤ xs.length) (x : List F) (hx : x.length = d) :
    ts.length * c.sums.keyCount ≤ (pushT A c x).cost := by
  rw [B.keys.keyCount, pushT_eq_window A (by omega) B hx, bind_cost]
  exact ((evictT_cost A hts (le_foldr_max ts) B (by omega)).2.2 h2 hfull).trans (Nat.le_add_right _ _)

end Verif.JFP
