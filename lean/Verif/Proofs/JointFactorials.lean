import Verif.Model.JointFactorials
import Verif.Proofs.Factorials
import Verif.Proofs.JointAlias

/-! # The shared factorial table: `joint.Core` -/

namespace Verif.Fact.J
open Verif Verif.MathUtil Verif.Joint Ask

set_option linter.unusedSectionVars false

/-! ## A push asks for factorials -/

theorem multinomLoopA_eval (r : Int) (m n : Tuple) : (multinomLoopA r m n).eval factorial = multinomLoop r m n := by
  induction m generalizing r n with
  | nil => rfl
  | cons a m ih =>
    cases n with
    | nil => rfl
    | cons b n =>
      simp only [multinomLoopA, multinomLoop]
      rw [eval_bind, binomA_eval]
      rcases binom a b with c | _ | _
      · exact ih _ _
      · rfl
      · rfl

theorem multinomA_eval (m n : Tuple) : (multinomA m n).eval factorial = multinom m n := by
  unfold multinomA multinom
  by_cases h : m.length ≠ n.length
  · rw [if_pos h, if_pos h]; rfl
  · rw [if_neg h, if_neg h, eval_bind, multinomLoopA_eval]
    rcases multinomLoop 1 m n with c | _ | _ <;> rfl

section iter
variable {σ : Type}

theorem forEachA_eval {α : Type} {body : α → σ → Ask (σ × List Err)} {body' : α → σ → Go (σ × List Err)}
    (h : ∀ i s, (body i s).eval factorial = body' i s) (is : List α) (s : σ) : (forEachA body is s).eval factorial = forEach body' is s := by
  induction is generalizing s with
  | nil => rfl
  | cons i is ih =>
    simp only [forEachA, forEach]
    rw [eval_bind, h]
    rcases body' i s with ⟨s1, e1⟩ | _ | _
    · rw [Go.val_bind, eval_bind, ih]
      dsimp only
      rcases forEach body' is s1 with ⟨s2, e2⟩ | _ | _ <;> rfl
    · rfl
    · rfl

theorem iterRevA_eval (rev : Bool) (t : Tuple) {cb : Tuple → σ → Ask (σ × List Err)} {cb' : Tuple → σ → Go (σ × List Err)}
    (h : ∀ xs s, (cb xs s).eval factorial = cb' xs s) (s : σ) : (iterRevA rev t cb s).eval factorial = iterRev rev t cb' s := by
  induction t generalizing cb cb' s with
  | nil => exact h [] s
  | cons n rest ih => exact forEachA_eval (fun i s => ih (fun xs s => h (xs ++ [i]) s) s) _ _

theorem iterA_eval (t : Tuple) (rev : Bool) {cb : Tuple → σ → Ask (σ × List Err)} {cb' : Tuple → σ → Go (σ × List Err)}
    (h : ∀ xs s, (cb xs s).eval factorial = cb' xs s) (s : σ) : (iterA t rev cb s).eval factorial = iter t rev cb' s :=
  iterRevA_eval rev _ h s

end iter

variable {K : Type} [Field K]

theorem visitPartA_eval (r : Rule K) (sums : Joint.Map K) (a b : Tuple) (dp : K) (ns : Joint.Map K) :
    (visitPartA r sums a b dp ns).eval factorial = visitPart r sums a b dp ns := by
  unfold visitPartA visitPart
  rw [eval_bind, multinomA_eval]
  rcases multinom a b with (e | m) | _ | _
  · rfl
  · rw [Go.val_bind]
    dsimp only
    rcases sub a b with e | d <;> rfl
  · rfl
  · rfl

theorem visitA_eval (r : Rule K) (delta : List K) (sums : Joint.Map K) (a b : Tuple) (ns : Joint.Map K) :
    (visitA r delta sums a b ns).eval factorial = visit r delta sums a b ns := by
  unfold visitA visit
  rcases Joint.pow delta b with e | dp
  · rfl
  · dsimp only
    split
    · rfl
    · split
      · rfl
      · exact visitPartA_eval ..

theorem updateTupleA_eval (r : Rule K) (rev : Bool) (delta : List K) (sums : Joint.Map K) (t : Tuple) (ns : Joint.Map K) :
    (updateTupleA r rev delta sums t ns).eval factorial = updateTuple r rev delta sums t ns :=
  iterA_eval _ _ (fun _ _ => iterA_eval _ _ (fun _ _ => visitA_eval ..) _) _

theorem updateAllA_eval (r : Rule K) (delta : List K) (sums : Joint.Map K) (ts : List Tuple) (ns : Joint.Map K) :
    (updateAllA r delta sums ts ns).eval factorial = updateAll r delta sums ts ns := by
  induction ts generalizing ns with
  | nil => rfl
  | cons t ts ih =>
    simp only [updateAllA, updateAll]
    rw [eval_bind, updateTupleA_eval]
    rcases updateTuple r true delta sums t ns with ⟨ns', _ | ⟨e, es⟩⟩ | _ | _
    · exact ih _
    · rfl
    · rfl
    · rfl

theorem removeAllA_eval (r : Rule K) (delta : List K) (ts : List Tuple) (sums ns : Joint.Map K) :
    (removeAllA r delta ts sums ns).eval factorial = removeAll r delta ts sums ns := by
  induction ts generalizing sums ns with
  | nil => rfl
  | cons t ts ih =>
    simp only [removeAllA, removeAll]
    rw [eval_bind, updateTupleA_eval]
    rcases updateTuple r false delta sums t ns with ⟨ns', _ | ⟨e, es⟩⟩ | _ | _
    · exact ih _ _
    · rfl
    · rfl
    · rfl

theorem addA_eval (c : Core K) (xs : List K) : (addA c xs).eval factorial = Joint.add c xs := by
  unfold addA Joint.add
  simp only
  rw [eval_bind, updateAllA_eval]
  rcases updateAll _ _ _ _ _ with ⟨ns, _ | e⟩ | _ | _ <;> rfl

theorem addDecayA_eval (d : K) (c : Core K) (xs : List K) : (addDecayA d c xs).eval factorial = Joint.addDecay d c xs := by
  unfold addDecayA Joint.addDecay
  simp only
  rw [eval_bind, updateAllA_eval]
  rcases updateAll _ _ _ _ _ with ⟨ns, _ | e⟩ | _ | _ <;> rfl

theorem removeA_eval (c : Core K) (xs : List K) : (removeA c xs).eval factorial = Joint.remove c xs := by
  unfold removeA Joint.remove
  simp only
  by_cases h : c.count - 1 > 0
  · rw [if_pos h, if_pos h, eval_bind, removeAllA_eval]
    rcases removeAll _ _ _ _ _ with ⟨s, ns, e⟩ | _ | _ <;> rfl
  · rw [if_neg h, if_neg h]; rfl

theorem evictA_eval (c : Core K) : (evictA c).eval factorial = Joint.evict c := by
  unfold evictA Joint.evict
  by_cases h : (c.queue.len : Int) = c.window
  · rw [if_pos h, if_pos h]
    rcases c.queue.get with (e | ⟨t, q⟩) | _ | _
    · rfl
    · exact removeA_eval ..
    · rfl
    · rfl
  · rw [if_neg h, if_neg h]; rfl

theorem pushAddA_eval (c : Core K) (xs : List K) : (pushAddA c xs).eval factorial = Joint.pushAdd c xs := by
  unfold pushAddA Joint.pushAdd
  rcases c.decay with _ | d
  · exact addA_eval ..
  · exact addDecayA_eval ..

theorem pushPutA_eval (c : Core K) (xs : List K) : (pushPutA c xs).eval factorial = Joint.pushPut c xs := by
  unfold pushPutA Joint.pushPut
  rcases c.queue.put xs with (e | q) | _ | _
  · rfl
  · exact pushAddA_eval ..
  · rfl
  · rfl

/-- With the right answers the program is `Push`. -/
theorem pushA_eval (c : Core K) (xs : List K) : (pushA c xs).eval factorial = Joint.push c xs := by
  unfold pushA Joint.push
  by_cases hl : xs.length ≠ c.means.length
  · rw [if_pos hl, if_pos hl]; rfl
  · rw [if_neg hl, if_neg hl]
    by_cases h : c.window ≠ 0
    · rw [if_pos h, if_pos h, eval_bind, evictA_eval]
      rcases Joint.evict c with ⟨c', _ | e⟩ | _ | _
      · exact pushPutA_eval ..
      · rfl
      · rfl
      · rfl
    · rw [if_neg h, if_neg h]; exact pushAddA_eval _ _

theorem pushesA_eval (c : Core K) (xs : List (List K)) : (pushesA c xs).eval factorial = pushes c xs := by
  induction xs generalizing c with
  | nil => rfl
  | cons x xs ih =>
    simp only [pushesA, pushes]
    rw [eval_bind, pushA_eval]
    rcases Joint.push c x with ⟨c', _ | e⟩ | _ | _
    · exact ih c'
    · rfl
    · rfl
    · rfl

theorem Job.asks_eval (j : Job K) : j.asks.eval factorial = j.alone := by
  cases j with
  | moment c xs =>
    simp only [Job.asks, Job.alone]
    rw [eval_bind, Fact.pushesA_eval]
    rcases Fact.pushes c xs with v | _ | _ <;> rfl
  | joint c xs =>
    simp only [Job.asks, Job.alone]
    rw [eval_bind, pushesA_eval]
    rcases pushes c xs with v | _ | _ <;> rfl

/-! ## Which factorials -/

variable {L : Nat}

/-- A tuple of exponents below `L`. -/
def Below (L : Nat) (t : Tuple) : Prop := ∀ k ∈ t, k < (L : Int)

theorem multinomLoopA_within {m n : Tuple} (h : List.Forall₂ (fun b a : Int => 0 ≤ b ∧ b ≤ a) n m) (hm : Below L m) (r : Int) :
    (multinomLoopA r m n).Within L := by
  induction h generalizing r with
  | nil => trivial
  | cons h1 _ ih =>
    exact (binomA_within (hm _ (List.mem_cons_self ..)) h1.1 h1.2).bind fun _ _ => ih (fun k hk => hm k (List.mem_cons_of_mem _ hk)) _

theorem multinomA_within {m n : Tuple} (h : List.Forall₂ (fun b a : Int => 0 ≤ b ∧ b ≤ a) n m) (hm : Below L m) : (multinomA m n).Within L := by
  unfold multinomA
  split
  · trivial
  · exact (multinomLoopA_within h hm 1).bind fun _ _ => trivial

section iter
variable {σ : Type}

theorem forEachA_within {α : Type} {body : α → σ → Ask (σ × List Err)} {is : List α} (h : ∀ i ∈ is, ∀ s, (body i s).Within L) (s : σ) :
    (forEachA body is s).Within L := by
  induction is generalizing s with
  | nil => trivial
  | cons i is ih =>
    exact (h i (List.mem_cons_self ..) s).bind fun r _ =>
      (ih (fun j hj => h j (List.mem_cons_of_mem _ hj)) r.1).bind fun _ _ => trivial

theorem mem_indices_le {rev : Bool} {n i : Int} (h : i ∈ indices rev n) : 0 ≤ i ∧ i ≤ n := by
  have : i ∈ (List.range (n + 1).toNat).map Int.ofNat := by
    unfold indices at h
    cases rev
    · exact h
    · exact List.mem_reverse.1 h
  obtain ⟨k, hk, rfl⟩ := List.mem_map.1 this
  have := List.mem_range.1 hk
  constructor
  · exact Int.natCast_nonneg k
  · show (k : Int) ≤ n
    omega

theorem iterRevA_within (rev : Bool) (t : Tuple) {cb : Tuple → σ → Ask (σ × List Err)}
    (h : ∀ xs s, List.Forall₂ (fun b a : Int => 0 ≤ b ∧ b ≤ a) xs t.reverse → (cb xs s).Within L) (s : σ) : (iterRevA rev t cb s).Within L := by
  induction t generalizing cb s with
  | nil => exact h [] s (by simp)
  | cons n rest ih =>
    refine forEachA_within (fun i hi s => ih (fun xs s hx => h _ _ ?_) s) _
    rw [List.reverse_cons]
    exact List.rel_append hx (.cons (mem_indices_le hi) .nil)

theorem iterA_within (t : Tuple) (rev : Bool) {cb : Tuple → σ → Ask (σ × List Err)}
    (h : ∀ xs s, List.Forall₂ (fun b a : Int => 0 ≤ b ∧ b ≤ a) xs t → (cb xs s).Within L) (s : σ) : (iterA t rev cb s).Within L :=
  iterRevA_within rev _ (fun xs s hx => h xs s (by rwa [List.reverse_reverse] at hx)) s

end iter

theorem Below.of_le {a t : Tuple} (ht : Below L t) (h : List.Forall₂ (fun b a : Int => 0 ≤ b ∧ b ≤ a) a t) : Below L a := by
  induction h with
  | nil => exact fun k hk => absurd hk (List.not_mem_nil)
  | cons h1 _ ih =>
    intro k hk
    rcases List.mem_cons.1 hk with rfl | hk
    · exact lt_of_le_of_lt h1.2 (ht _ (List.mem_cons_self ..))
    · exact ih (fun k hk => ht k (List.mem_cons_of_mem _ hk)) k hk

theorem visitA_within (r : Rule K) (delta : List K) (sums : Joint.Map K) {a b : Tuple}
    (h : List.Forall₂ (fun b a : Int => 0 ≤ b ∧ b ≤ a) b a) (ha : Below L a) (ns : Joint.Map K) : (visitA r delta sums a b ns).Within L := by
  unfold visitA
  rcases Joint.pow delta b with e | dp
  · trivial
  · dsimp only
    split
    · trivial
    · split
      · trivial
      · refine (multinomA_within h ha).bind fun m _ => ?_
        rcases m with e | m
        · trivial
        · dsimp only
          rcases sub a b with e | d <;> trivial

theorem updateTupleA_within (r : Rule K) (rev : Bool) (delta : List K) (sums : Joint.Map K) {t : Tuple} (ht : Below L t) (ns : Joint.Map K) :
    (updateTupleA r rev delta sums t ns).Within L :=
  iterA_within _ _ (fun _ _ ha => iterA_within _ _ (fun _ _ hb => visitA_within _ _ _ hb (ht.of_le ha) _) _) _

theorem updateAllA_within (r : Rule K) (delta : List K) (sums : Joint.Map K) {ts : List Tuple} (ht : ∀ t ∈ ts, Below L t) (ns : Joint.Map K) :
    (updateAllA r delta sums ts ns).Within L := by
  induction ts generalizing ns with
  | nil => trivial
  | cons t ts ih =>
    refine (updateTupleA_within _ _ _ _ (ht t (List.mem_cons_self ..)) _).bind fun q _ => ?_
    rcases q with ⟨ns', _ | ⟨e, es⟩⟩
    · exact ih (fun t h => ht t (List.mem_cons_of_mem _ h)) _
    · trivial

theorem removeAllA_within (r : Rule K) (delta : List K) {ts : List Tuple} (ht : ∀ t ∈ ts, Below L t) (sums ns : Joint.Map K) :
    (removeAllA r delta ts sums ns).Within L := by
  induction ts generalizing sums ns with
  | nil => trivial
  | cons t ts ih =>
    refine (updateTupleA_within _ _ _ _ (ht t (List.mem_cons_self ..)) _).bind fun q _ => ?_
    rcases q with ⟨ns', _ | ⟨e, es⟩⟩
    · exact ih (fun t h => ht t (List.mem_cons_of_mem _ h)) _ _
    · trivial

theorem pushAddA_within {c : Core K} (hc : ∀ t ∈ c.tuples, Below L t) (xs : List K) : (pushAddA c xs).Within L := by
  unfold pushAddA
  rcases c.decay with _ | d
  · refine (updateAllA_within _ _ _ hc _).bind fun q _ => ?_
    rcases q with ⟨ns, _ | e⟩ <;> trivial
  · refine (updateAllA_within _ _ _ hc _).bind fun q _ => ?_
    rcases q with ⟨ns, _ | e⟩ <;> trivial

theorem evictA_within {c : Core K} (hc : ∀ t ∈ c.tuples, Below L t) : (evictA c).Within L := by
  unfold evictA
  split
  · rcases c.queue.get with (e | ⟨t, q⟩) | _ | _
    · trivial
    · dsimp only
      unfold removeA
      simp only
      split
      · exact (removeAllA_within _ _ hc _ _).bind fun _ _ => trivial
      · trivial
    · trivial
    · trivial
  · trivial

/-! The tuples of a core never change. -/

theorem remove_tuples {c c' : Core K} {xs : List K} {e : Option Err} (h : Joint.remove c xs = .val (c', e)) : c'.tuples = c.tuples := by
  unfold Joint.remove at h
  simp only at h
  split at h
  · split at h <;> cases h
    rfl
  · cases h; rfl

theorem evict_tuples {c c' : Core K} {e : Option Err} (h : Joint.evict c = .val (c', e)) : c'.tuples = c.tuples := by
  unfold Joint.evict at h
  split at h
  · split at h
    · cases h
    · cases h
    · cases h; rfl
    · exact (remove_tuples h).trans rfl
  · cases h; rfl

theorem pushAdd_tuples {c c' : Core K} {xs : List K} {e : Option Err} (h : Joint.pushAdd c xs = .val (c', e)) : c'.tuples = c.tuples := by
  unfold Joint.pushAdd at h
  split at h
  · unfold Joint.add at h
    simp only at h
    split at h <;> cases h <;> rfl
  · unfold Joint.addDecay at h
    simp only at h
    split at h <;> cases h <;> rfl

theorem push_tuples {c c' : Core K} {xs : List K} {e : Option Err} (h : Joint.push c xs = .val (c', e)) : c'.tuples = c.tuples := by
  unfold Joint.push at h
  split at h
  · cases h; rfl
  · split at h
    · split at h
      · cases h
      · cases h
      · rename_i he; cases h; exact evict_tuples he
      · rename_i he
        unfold Joint.pushPut at h
        split at h
        · cases h
        · cases h
        · cases h; exact evict_tuples he
        · have h1 := pushAdd_tuples h
          have h2 := evict_tuples he
          dsimp only at h1
          exact h1.trans h2
    · exact pushAdd_tuples h

theorem pushA_within {c : Core K} (hc : ∀ t ∈ c.tuples, Below L t) (xs : List K) : (pushA c xs).Within L := by
  unfold pushA
  split
  · trivial
  · split
    · refine (evictA_within hc).bind fun r hr => ?_
      rw [evictA_eval] at hr
      rcases r with ⟨c', _ | e⟩
      · have ht := evict_tuples hr
        dsimp only
        unfold pushPutA
        rcases c'.queue.put xs with (e | q) | _ | _
        · trivial
        · exact pushAddA_within (c := { c' with queue := q }) (by simpa only [ht] using hc) xs
        · trivial
        · trivial
      · trivial
    · exact pushAddA_within hc xs

/-- A core with exponents below `L` needs the first `L` entries. -/
theorem pushesA_within {c : Core K} (hc : ∀ t ∈ c.tuples, Below L t) (xs : List (List K)) : (pushesA c xs).Within L := by
  induction xs generalizing c with
  | nil => trivial
  | cons x xs ih =>
    refine (pushA_within hc x).bind fun r hr => ?_
    rw [pushA_eval] at hr
    rcases r with ⟨c', _ | e⟩
    · exact ih (c := c') (by rw [push_tuples hr]; exact hc)
    · trivial

theorem newCore_tuples [GoOrd K] {cfg : Joint.Config K} {c : Core K} (h : Joint.newCore cfg = .val (.ok c)) : c.tuples = cfg.sums.getD [] := by
  unfold Joint.newCore at h
  split at h
  · cases h
  · split at h
    · cases h
    · cases h
    · rename_i hm
      cases h
      unfold Joint.mk at hm
      split at hm
      · cases hm
      · cases hm
      · cases hm; rfl

end Verif.Fact.J
