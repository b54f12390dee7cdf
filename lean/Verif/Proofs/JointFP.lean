import Verif.Model.JointFP
import Verif.Proofs.JointAlias
import Verif.Proofs.JointConfig
import Verif.Proofs.NoHang

/-! # The joint core over an arbitrary arithmetic: refinement and control flow -/

set_option linter.unusedSectionVars false

namespace Verif.JFP
open Verif.Spec Verif.MathUtil
open Verif.FP (Arith)
open Verif.Joint (Tuple Map Core Config forEach iter multinom multinomLoop sub hash abs eq Under visited iter_eq mem_visited KeyInv keyOf)

/-! ### Over a field it is the model of `Model/Joint.lean` -/

section exact
variable {K : Type} [Field K]

/-- What a rule of this file is over a field: `-=` is `+=` of the negation. -/
structure Matches (r : Rule K) (r' : Joint.Rule K) : Prop where
  base : ∀ s, r.base s = r'.base s
  full : ∀ x n dp, r.op x (r.full n dp) = x + r'.full n dp
  part : ∀ x m n dp s, r.op x (r.part m n dp s) = x + r'.part m n dp s
  fresh : r.fresh = r'.fresh

theorem get_exact (m : Map K) (h : Int) : get (Arith.exact K) m h = Map.get m h := by
  simp [get, Map.get, Arith.exact]

theorem zeroMap_exact (m : Map K) : zeroMap (Arith.exact K) m = Map.zero m := by
  funext h
  simp [zeroMap, Map.zero, Arith.exact]

theorem powLoop_exact (r : K) (xs : List K) (ns : Tuple) : powLoop (Arith.exact K) r xs ns = Joint.powLoop r xs ns := by
  induction xs generalizing r ns with
  | nil => cases ns <;> rfl
  | cons x xs ih =>
    cases ns with
    | nil => rfl
    | cons n ns => exact ih _ _

theorem pow_exact (xs : List K) (ns : Tuple) : pow (Arith.exact K) xs ns = Joint.pow xs ns := by
  simp only [pow, Joint.pow, powLoop_exact]
  simp [Arith.exact]

theorem addRule_exact (count : K) : Matches (addRule (Arith.exact K) count) (Joint.addRule count) := by
  constructor <;> simp [addRule, Joint.addRule, Arith.exact]

theorem decayRule_exact (d : K) : Matches (decayRule (Arith.exact K) d) (Joint.decayRule d) := by
  constructor <;> simp [decayRule, Joint.decayRule, Arith.exact]

theorem removeRule_exact (count : K) : Matches (removeRule (Arith.exact K) count) (Joint.removeRule count) := by
  constructor <;> simp [removeRule, Joint.removeRule, Arith.exact, sub_eq_add_neg]

theorem visit_exact {r : Rule K} {r' : Joint.Rule K} (h : Matches r r') (δ : List K) (sums : Map K) (a b : Tuple) (ns : Map K) :
    visit (Arith.exact K) r δ sums a b ns = Joint.visit r' δ sums a b ns := by
  unfold visit Joint.visit
  rw [pow_exact]
  cases Joint.pow δ b with
  | error e => rfl
  | ok dp =>
    simp only [bump, Joint.bump, get_exact, h.base, h.full]
    congr 2
    unfold visitPart Joint.visitPart
    rcases multinom a b with (e | m) | _ | _ <;> try rfl
    cases sub a b with
    | error e => rfl
    | ok diff => simp only [bump, Joint.bump, get_exact, h.part, h.fresh]; rfl

theorem updateTuple_exact {r : Rule K} {r' : Joint.Rule K} (h : Matches r r') (rev : Bool) (δ : List K) (sums : Map K) (t : Tuple) (ns : Map K) :
    updateTuple (Arith.exact K) r rev δ sums t ns = Joint.updateTuple r' rev δ sums t ns := by
  unfold updateTuple Joint.updateTuple
  congr 1
  funext a ns
  rw [show visit (Arith.exact K) r δ sums a = Joint.visit r' δ sums a by funext b ns; exact visit_exact h ..]
  simp [Arith.exact]

theorem updateAll_exact {r : Rule K} {r' : Joint.Rule K} (h : Matches r r') (δ : List K) (sums : Map K) (ts : List Tuple) (ns : Map K) :
    updateAll (Arith.exact K) r δ sums ts ns = Joint.updateAll r' δ sums ts ns := by
  induction ts generalizing ns with
  | nil => rfl
  | cons t ts ih =>
    simp only [updateAll, Joint.updateAll, updateTuple_exact h]
    rcases Joint.updateTuple r' true δ sums t ns with ⟨s, _ | ⟨e, es⟩⟩ | _ | _ <;> first | rfl | exact ih _

theorem removeAll_exact {r : Rule K} {r' : Joint.Rule K} (h : Matches r r') (δ : List K) (ts : List Tuple) (sums ns : Map K) :
    removeAll (Arith.exact K) r δ ts sums ns = Joint.removeAll r' δ ts sums ns := by
  induction ts generalizing sums ns with
  | nil => rfl
  | cons t ts ih =>
    simp only [removeAll, Joint.removeAll, updateTuple_exact h]
    rcases Joint.updateTuple r' false δ sums t ns with ⟨s, _ | ⟨e, es⟩⟩ | _ | _ <;> first | rfl | exact ih _ _

theorem add_exact (c : Core K) (xs : List K) : add (Arith.exact K) c xs = Joint.add c xs := by
  simp only [add, finish, Joint.add, updateAll_exact (addRule_exact _)]
  rfl

theorem addDecay_exact (d : K) (c : Core K) (xs : List K) : addDecay (Arith.exact K) d c xs = Joint.addDecay d c xs := by
  simp only [addDecay, finish, Joint.addDecay, updateAll_exact (decayRule_exact _)]
  rw [show (if c.count + 1 = 1 then (Arith.exact K).ofInt 1 else d) = if c.count + 1 = 1 then 1 else d by simp [Arith.exact]]
  rfl

theorem remove_exact (c : Core K) (xs : List K) : remove (Arith.exact K) c xs = Joint.remove c xs := by
  simp only [remove, Joint.remove, removeAll_exact (removeRule_exact _), zeroMap_exact]
  simp only [Arith.exact, Int.cast_zero]
  rfl

theorem evict_exact (c : Core K) : evict (Arith.exact K) c = Joint.evict c := by
  simp only [evict, Joint.evict, remove_exact]
  rfl

theorem pushAdd_exact (c : Core K) (xs : List K) : pushAdd (Arith.exact K) c xs = Joint.pushAdd c xs := by
  simp only [pushAdd, Joint.pushAdd, add_exact, addDecay_exact]
  rfl

theorem pushPut_exact (c : Core K) (xs : List K) : pushPut (Arith.exact K) c xs = Joint.pushPut c xs := by
  simp only [pushPut, Joint.pushPut, pushAdd_exact]
  rfl

theorem push_exact (c : Core K) (xs : List K) : push (Arith.exact K) c xs = Joint.push c xs := by
  simp only [push, Joint.push, evict_exact, pushAdd_exact, pushPut_exact]
  rfl

theorem clear_exact (c : Core K) : clear (Arith.exact K) c = Joint.clear c := by
  simp only [clear, Joint.clear, zeroMap_exact]
  simp [Arith.exact]

theorem step_exact : step (Arith.exact K) = Joint.step (K := K) := by
  funext c o
  cases o with
  | push x => exact push_exact c x
  | clear => simp [step, Joint.step, clear_exact]

theorem run_exact (c : Core K) (ops : List (MOp (List K))) : run (Arith.exact K) c ops = Joint.run c ops := by
  unfold run Joint.run
  rw [step_exact]

theorem initSums_exact (ts : List Tuple) (m : Map K) : initSums (Arith.exact K) ts m = Joint.initSums ts m := by
  induction ts generalizing m with
  | nil => rfl
  | cons t ts ih =>
    simp only [initSums, Joint.initSums, ih]
    simp only [Arith.exact, Int.cast_zero]
    rfl

theorem mk_exact (c : Config K) : mk (Arith.exact K) c = Joint.mk c := by
  simp only [mk, Joint.mk, initSums_exact]
  simp only [Arith.exact, Int.cast_zero]
  rfl

theorem newCore_exact [GoOrd K] (c : Config K) : newCore (Arith.exact K) c = Joint.newCore c := by
  simp only [newCore, Joint.newCore, mk_exact]
  simp only [Arith.exact, Int.cast_zero, Int.cast_one]
  rfl

end exact

/-! ### One visit -/

variable {F : Type} (A : Arith F)

/-- The multinomial coefficient, where it exists. -/
def multV (a b : Tuple) : Int :=
  match multinom a b with
  | .val (.ok m) => m
  | _ => 0

/-- The difference. -/
def subV (a b : Tuple) : Tuple := List.zipWith (fun x y => wrap (x - y)) a b

/-- The new `c.newSums[hash]` after the visit of `b`, given its value before. -/
def termV (r : Rule F) (δ : List F) (base : F) (look : Tuple → F) (a : Tuple) (acc : F) (b : Tuple) : F :=
  if abs b = 0 then A.add acc (r.base base)
  else if eq b a then r.op acc (r.full (abs b).toNat (powLoop A (A.ofInt 1) δ b))
  else r.op acc (r.part (A.ofInt (wrap (multV a b * sign (abs b)))) (abs b).toNat (powLoop A (A.ofInt 1) δ b) (look (subV a b)))

/-- Exponents for which nothing divides by zero. -/
def TOK (n : Nat) (t : Tuple) : Prop := t.length = n ∧ ∀ k ∈ t, 0 ≤ k ∧ k ≤ 65

theorem under_length {a t : Tuple} (h : Under a t) : a.length = t.length := List.Forall₂.length_eq h

theorem under_mem {a t : Tuple} (h : Under a t) : ∀ k ∈ a, ∃ j ∈ t, 0 ≤ k ∧ k ≤ j := by
  unfold Under at h
  induction h with
  | nil => simp
  | @cons x y a t h h' ih =>
    intro k hk
    rcases List.mem_cons.1 hk with rfl | hk
    · exact ⟨y, List.mem_cons_self, h⟩
    · obtain ⟨j, hj, h⟩ := ih k hk
      exact ⟨j, List.mem_cons_of_mem _ hj, h⟩

theorem TOK.under {n : Nat} {a t : Tuple} (h : TOK n t) (ha : Under a t) : TOK n a := by
  refine ⟨(under_length ha).trans h.1, fun k hk => ?_⟩
  obtain ⟨j, hj, h1, h2⟩ := under_mem ha k hk
  exact ⟨h1, h2.trans (h.2 j hj).2⟩

theorem multinomLoop_ok {a b : Tuple} (h : Under b a) (hk : ∀ k ∈ a, k ≤ 65) (r : Int) : ∃ v, multinomLoop r a b = .val v := by
  unfold Under at h
  induction h generalizing r with
  | nil => exact ⟨r, rfl⟩
  | @cons x y b a h h' ih =>
    have h65 := hk y List.mem_cons_self
    obtain ⟨v, hv⟩ := binom_no_panic (n := y.toNat) (k := x.toNat) (by omega) (by omega)
    rw [Int.toNat_of_nonneg (by omega), Int.toNat_of_nonneg h.1] at hv
    obtain ⟨v', hv'⟩ := ih (fun k hk' => hk k (List.mem_cons_of_mem _ hk')) (wrap (r * v))
    exact ⟨v', by simp only [multinomLoop, hv, hv']⟩

theorem multinom_ok {n : Nat} {a b : Tuple} (h : Under b a) (ha : TOK n a) : multinom a b = .val (.ok (multV a b)) := by
  obtain ⟨v, hv⟩ := multinomLoop_ok h (fun k hk => (ha.2 k hk).2) 1
  have : multinom a b = .val (.ok v) := by
    unfold multinom
    rw [if_neg (by simp [under_length h]), hv]
  unfold multV
  rw [this]

theorem visit_val {n : Nat} (r : Rule F) {δ : List F} {a b : Tuple} (h : Under b a) (ha : TOK n a) (hδ : δ.length = n) (sums ns : Map F) :
    visit A r δ sums a b ns = .val (Map.set ns (hash a)
      (termV A r δ (get A sums (hash a)) (fun c => get A (if r.fresh then ns else sums) (hash c)) a (get A ns (hash a)) b), []) := by
  unfold visit pow termV
  rw [if_neg (by simp [hδ, under_length h, ha.1])]
  simp only
  by_cases h0 : abs b = 0
  · rw [if_pos h0, if_pos h0]; rfl
  rw [if_neg h0, if_neg h0]
  by_cases he : eq b a = true
  · rw [if_pos he, if_pos he]; rfl
  rw [if_neg he, if_neg he]
  unfold visitPart
  rw [multinom_ok h ha]
  simp only [sub]
  rw [if_neg (by simp [under_length h])]
  rfl

/-! ### Loops -/

theorem forEach_val {α σ : Type} {P : σ → Prop} {body : α → σ → Go (σ × List Err)} (l : List α)
    (h : ∀ a ∈ l, ∀ s, P s → ∃ s', body a s = .val (s', []) ∧ P s') (s : σ) (hs : P s) :
    ∃ s', forEach body l s = .val (s', []) ∧ P s' := by
  induction l generalizing s with
  | nil => exact ⟨s, rfl, hs⟩
  | cons a l ih =>
    obtain ⟨s1, e1, h1⟩ := h a List.mem_cons_self s hs
    obtain ⟨s2, e2, h2⟩ := ih (fun a ha => h a (List.mem_cons_of_mem _ ha)) s1 h1
    exact ⟨s2, by simp [forEach, e1, e2], h2⟩

theorem iter_val {σ : Type} {P : σ → Prop} {cb : Tuple → σ → Go (σ × List Err)} (t : Tuple) (rev : Bool)
    (h : ∀ a, Under a t → ∀ s, P s → ∃ s', cb a s = .val (s', []) ∧ P s') (s : σ) (hs : P s) :
    ∃ s', iter t rev cb s = .val (s', []) ∧ P s' := by
  rw [iter_eq]
  exact forEach_val _ (fun a ha => h a (mem_visited.1 ha)) s hs

/-- What the loops keep of `c.newSums`, given `c.sums`: entries are reset to zero and then change by `termV`. -/
structure Keeps (ts : List Tuple) (r : Rule F) (δ : List F) (sums : Map F) (P : Map F → Prop) : Prop where
  zero : ∀ t ∈ ts, ∀ a, Under a t → ∀ ns, P ns → P (Map.set ns (hash a) (A.ofInt 0))
  term : ∀ t ∈ ts, ∀ a, Under a t → ∀ b, Under b a → ∀ ns, P ns → P (Map.set ns (hash a)
    (termV A r δ (get A sums (hash a)) (fun c => get A (if r.fresh then ns else sums) (hash c)) a (get A ns (hash a)) b))

theorem updateTuple_val {n : Nat} {ts : List Tuple} (hts : ∀ t ∈ ts, TOK n t) {r : Rule F} {δ : List F} (hδ : δ.length = n) {sums : Map F}
    {P : Map F → Prop} (hP : Keeps A ts r δ sums P) (rev : Bool) {t : Tuple} (ht : t ∈ ts) (ns : Map F) (hns : P ns) :
    ∃ ns', updateTuple A r rev δ sums t ns = .val (ns', []) ∧ P ns' := by
  refine iter_val t rev (fun a ha ns hns => ?_) ns hns
  refine iter_val a false (fun b hb ns hns => ?_) _ (hP.zero t ht a ha ns hns)
  exact ⟨_, visit_val A r hb ((hts t ht).under ha) hδ sums ns, hP.term t ht a ha b hb ns hns⟩

theorem updateAll_val {n : Nat} {ts : List Tuple} (hts : ∀ t ∈ ts, TOK n t) {r : Rule F} {δ : List F} (hδ : δ.length = n) {sums : Map F}
    {P : Map F → Prop} (hP : Keeps A ts r δ sums P) (l : List Tuple) (hl : ∀ t ∈ l, t ∈ ts) (ns : Map F) (hns : P ns) :
    ∃ ns', updateAll A r δ sums l ns = .val (ns', none) ∧ P ns' := by
  induction l generalizing ns with
  | nil => exact ⟨ns, rfl, hns⟩
  | cons t l ih =>
    obtain ⟨n1, e1, h1⟩ := updateTuple_val A hts hδ hP true (hl t List.mem_cons_self) ns hns
    obtain ⟨n2, e2, h2⟩ := ih (fun t ht => hl t (List.mem_cons_of_mem _ ht)) n1 h1
    exact ⟨n2, by simp only [updateAll, e1, e2], h2⟩

theorem removeAll_val {n : Nat} {ts : List Tuple} (hts : ∀ t ∈ ts, TOK n t) {r : Rule F} {δ : List F} (hδ : δ.length = n)
    {P : Map F → Map F → Prop} (hP : ∀ sums, Keeps A ts r δ sums (P sums)) (hc : ∀ sums ns, P sums ns → P (Map.copy sums ns) ns)
    (l : List Tuple) (hl : ∀ t ∈ l, t ∈ ts) (sums ns : Map F) (hns : P sums ns) :
    ∃ sums' ns', removeAll A r δ l sums ns = .val (sums', ns', none) ∧ P sums' ns' := by
  induction l generalizing sums ns with
  | nil => exact ⟨sums, ns, rfl, hns⟩
  | cons t l ih =>
    obtain ⟨n1, e1, h1⟩ := updateTuple_val A hts hδ (hP sums) false (hl t List.mem_cons_self) ns hns
    obtain ⟨s2, n2, e2, h2⟩ := ih (fun t ht => hl t (List.mem_cons_of_mem _ ht)) _ n1 (hc _ _ h1)
    exact ⟨s2, n2, by simp only [removeAll, e1, e2], h2⟩

/-- The key sets do not change. -/
theorem keeps_keys (ts : List Tuple) (r : Rule F) (δ : List F) (sums : Map F) : Keeps A ts r δ sums (KeyInv (keyOf ts)) :=
  ⟨fun t ht a ha _ h => h.set ⟨t, ht, a, ha, rfl⟩ _, fun t ht a ha _ _ _ h => h.set ⟨t, ht, a, ha, rfl⟩ _⟩

theorem zeroMap_keys {key : Int → Prop} {m : Map F} (h : KeyInv key m) : KeyInv key (zeroMap A m) := by
  intro k
  rw [← h k]
  unfold zeroMap
  cases m k <;> simp

/-! ### Bookkeeping -/

/-- Everything but the numbers, after the points `xs` since the last `Clear`. -/
structure Book (n w : Nat) (d : Option F) (ts : List Tuple) (xs : List (List F)) (c : Core F) : Prop where
  win : c.window = w
  dec : c.decay = d
  tup : c.tuples = ts
  mlen : c.means.length = n
  xlen : ∀ x ∈ xs, x.length = n
  cap : c.queue.cap = Ring.roundUp w
  live : c.queue.disposed = false
  q : w ≠ 0 → c.queue.items = lastN w xs
  count : c.count = (lastN w xs).length
  keys : KeyInv (keyOf ts) c.sums
  nkeys : KeyInv (keyOf ts) c.newSums

/-- All the entries of a map are zero. -/
def AllZero (m : Map F) : Prop := ∀ k v, m k = some v → v = A.ofInt 0

/-- The numbers: `I xs` (means, sums, new sums) after the points `xs`, `I' xs` when room for the next point has been made. -/
structure Track (n w : Nat) (d : Option F) (ts : List Tuple) (I I' : List (List F) → List F → Map F → Map F → Prop) : Prop where
  zero : ∀ s ns, KeyInv (keyOf ts) s → KeyInv (keyOf ts) ns → AllZero A s → AllZero A ns → I [] (List.replicate n (A.ofInt 0)) s ns
  room : ∀ xs m s ns, (w = 0 ∨ (lastN w xs).length < w) → I xs m s ns → I' xs m s ns
  evict1 : ∀ xs m s ns, w = 1 → xs ≠ [] → I xs m s ns → I' xs (List.replicate n (A.ofInt 0)) (zeroMap A s) (zeroMap A ns)
  evict : ∀ xs y ys m s ns s' ns', lastN w xs = y :: ys → ys.length + 1 = w → ys ≠ [] → y.length = n → m.length = n →
    KeyInv (keyOf ts) s → KeyInv (keyOf ts) ns → I xs m s ns →
    removeAll A (removeRule A (A.ofInt ys.length))
      (List.zipWith (fun x m => A.sub x m) y (List.zipWith (fun x m => A.sub m (A.div (A.sub x m) (A.ofInt ys.length))) y m)) ts s ns =
        .val (s', ns', none) →
    I' xs (List.zipWith (fun x m => A.sub m (A.div (A.sub x m) (A.ofInt ys.length))) y m) s' ns'
  add : d = none → ∀ xs x m s ns ns', x.length = n → m.length = n → KeyInv (keyOf ts) s → KeyInv (keyOf ts) ns → I' xs m s ns →
    updateAll A (addRule A (A.ofInt (lastN w (xs ++ [x])).length)) (List.zipWith (fun x m => A.sub x m) x m) s ts ns = .val (ns', none) →
    I (xs ++ [x]) (List.zipWith (fun m d => A.add m (A.div d (A.ofInt (lastN w (xs ++ [x])).length))) m (List.zipWith (fun x m => A.sub x m) x m))
      (Map.copy s ns') ns'
  decay : ∀ dd, d = some dd → ∀ xs x m s ns ns', x.length = n → m.length = n → KeyInv (keyOf ts) s → KeyInv (keyOf ts) ns → I' xs m s ns →
    updateAll A (decayRule A (if (lastN w (xs ++ [x])).length = 1 then A.ofInt 1 else dd)) (List.zipWith (fun x m => A.sub x m) x m) s ts ns = .val (ns', none) →
    I (xs ++ [x]) (List.zipWith (fun m e => A.add m (A.mul (if (lastN w (xs ++ [x])).length = 1 then A.ofInt 1 else dd) e)) m
      (List.zipWith (fun x m => A.sub x m) x m)) (Map.copy s ns') ns'

theorem track_true (n w : Nat) (d : Option F) (ts : List Tuple) : Track A n w d ts (fun _ _ _ _ => True) (fun _ _ _ _ => True) := by
  constructor <;> intros <;> trivial

theorem finish_val {n : Nat} {ts : List Tuple} (hts : ∀ t ∈ ts, TOK n t) {r : Rule F} {δ : List F} (hδ : δ.length = n) {c : Core F}
    (ht : c.tuples = ts) (hk : KeyInv (keyOf ts) c.sums) (hnk : KeyInv (keyOf ts) c.newSums) :
    ∃ ns', updateAll A r δ c.sums ts c.newSums = .val (ns', none) ∧ KeyInv (keyOf ts) ns' ∧
      finish A r δ c = .val ({ c with newSums := ns', sums := Map.copy c.sums ns' }, none) := by
  obtain ⟨ns', e, h⟩ := updateAll_val A hts hδ (keeps_keys A ts r δ c.sums) ts (fun _ h => h) c.newSums hnk
  refine ⟨ns', e, h, ?_⟩
  unfold finish
  rw [ht, e]

theorem push_track {n w : Nat} {d : Option F} {ts : List Tuple} (hts : ∀ t ∈ ts, TOK n t)
    {I I' : List (List F) → List F → Map F → Map F → Prop} (T : Track A n w d ts I I') {xs : List (List F)} {c : Core F}
    (h : Book n w d ts xs c) (hI : I xs c.means c.sums c.newSums) {x : List F} (hx : x.length = n) :
    ∃ c', push A c x = .val (c', none) ∧ Book n w d ts (xs ++ [x]) c' ∧ I (xs ++ [x]) c'.means c'.sums c'.newSums := by
  have hxl : ∀ y ∈ xs ++ [x], y.length = n := by
    intro y hy
    rcases List.mem_append.1 hy with hy | hy
    · exact h.xlen y hy
    · rw [List.mem_singleton.1 hy, hx]
  have key : ∀ c1 : Core F, c1.window = w → c1.decay = d → c1.tuples = ts → c1.means.length = n → c1.queue.cap = Ring.roundUp w →
      c1.queue.disposed = false → (w ≠ 0 → c1.queue.items = lastN w (xs ++ [x])) → c1.count + 1 = (lastN w (xs ++ [x])).length →
      KeyInv (keyOf ts) c1.sums → KeyInv (keyOf ts) c1.newSums → I' xs c1.means c1.sums c1.newSums →
      ∃ c', pushAdd A c1 x = .val (c', none) ∧ Book n w d ts (xs ++ [x]) c' ∧ I (xs ++ [x]) c'.means c'.sums c'.newSums := by
    intro c1 h1 h2 h3 h4 h5 h6 h7 h8 h9 h10 h11
    have hδ : (List.zipWith (fun x m => A.sub x m) x c1.means).length = n := by simp [hx, h4]
    cases hd : d with
    | none =>
      obtain ⟨ns', e1, e2, e3⟩ := finish_val A hts (r := addRule A (A.ofInt (c1.count + 1))) hδ
        (c := { c1 with count := c1.count + 1, means := List.zipWith (fun m d => A.add m (A.div d (A.ofInt (c1.count + 1)))) c1.means (List.zipWith (fun x m => A.sub x m) x c1.means) }) h3 h9 h10
      have e4 : pushAdd A c1 x = add A c1 x := by simp only [pushAdd, h2, hd]
      refine ⟨_, e4.trans e3, ⟨h1, h2.trans hd, h3, by simp [hx, h4], hxl, h5, h6, h7, h8, h9.copy e2, e2⟩, ?_⟩
      rw [h8] at e1 ⊢
      exact T.add hd xs x _ _ _ _ hx h4 h9 h10 h11 e1
    | some dd =>
      have hif : (if (lastN w (xs ++ [x])).length = 1 then A.ofInt 1 else dd) = if c1.count + 1 = 1 then A.ofInt 1 else dd := by
        by_cases c : c1.count + 1 = 1
        · rw [if_pos c, if_pos (by omega)]
        · rw [if_neg c, if_neg (by omega)]
      obtain ⟨ns', e1, e2, e3⟩ := finish_val A hts (r := decayRule A (if c1.count + 1 = 1 then A.ofInt 1 else dd)) hδ
        (c := { c1 with count := c1.count + 1, means := List.zipWith (fun m e => A.add m (A.mul (if c1.count + 1 = 1 then A.ofInt 1 else dd) e)) c1.means (List.zipWith (fun x m => A.sub x m) x c1.means) }) h3 h9 h10
      have e4 : pushAdd A c1 x = addDecay A dd c1 x := by simp only [pushAdd, h2, hd]
      refine ⟨_, e4.trans e3, ⟨h1, h2.trans hd, h3, by simp [hx, h4], hxl, h5, h6, h7, h8, h9.copy e2, e2⟩, ?_⟩
      have := T.decay dd hd xs x _ _ _ _ hx h4 h9 h10 h11 (by rw [hif]; exact e1)
      rw [hif] at this
      exact this
  unfold push
  rw [if_neg (by rw [h.mlen, hx]; simp)]
  by_cases hw : w = 0
  · subst hw
    rw [if_neg (by rw [h.win]; simp)]
    refine key c h.win h.dec h.tup h.mlen h.cap h.live (fun c => absurd rfl c) ?_ h.keys h.nkeys (T.room xs _ _ _ (.inl rfl) hI)
    rw [h.count]
    simp [lastN_zero]
  · rw [if_pos (by rw [h.win]; exact_mod_cast hw)]
    have hq := h.q hw
    have main : ∃ c1, evict A c = .val (c1, none) ∧ c1.window = w ∧ c1.decay = d ∧ c1.tuples = ts ∧ c1.means.length = n ∧
        c1.queue.cap = Ring.roundUp w ∧ c1.queue.disposed = false ∧ c1.queue.items ++ [x] = lastN w (xs ++ [x]) ∧
        c1.count = c1.queue.items.length ∧ c1.queue.items.length < w ∧ KeyInv (keyOf ts) c1.sums ∧ KeyInv (keyOf ts) c1.newSums ∧
        I' xs c1.means c1.sums c1.newSums := by
      unfold evict
      by_cases hf : (lastN w xs).length = w
      · have hlen : (c.queue.len : Int) = c.window := by rw [h.win, Ring.len, hq, hf]
        rw [if_pos hlen]
        obtain ⟨y, ys, hy⟩ : ∃ y ys, lastN w xs = y :: ys := by
          apply List.exists_cons_of_ne_nil
          intro hn
          rw [hn] at hf
          exact hw hf.symm
        have hyx : y ∈ xs := by
          have : y ∈ lastN w xs := by rw [hy]; exact List.mem_cons_self
          unfold lastN at this
          rw [if_neg hw] at this
          exact List.mem_of_mem_drop this
        rw [Ring.get_ok h.live (hq.trans hy)]
        simp only
        have hcnt := h.count
        rw [hy] at hcnt hf
        simp at hcnt hf
        have hsn : ys ++ [x] = lastN w (xs ++ [x]) := by
          rw [lastN_snoc_full hw _ _ (by rw [hy]; simpa using hf), hy]; rfl
        have hyl := h.xlen y hyx
        unfold remove
        by_cases h1 : ys = []
        · subst h1
          simp only
          rw [if_neg (by simp at hcnt; omega)]
          refine ⟨_, rfl, h.win, h.dec, h.tup, by simp [h.mlen], h.cap, h.live, hsn, by simp at hcnt ⊢; omega, by simp at hf ⊢; omega,
            zeroMap_keys A h.keys, zeroMap_keys A h.nkeys, ?_⟩
          have := T.evict1 xs _ _ _ (by simpa using hf.symm) (by rintro rfl; simp [lastN] at hy) hI
          simp only [List.map_const', h.mlen]
          exact this
        · have hpos : 0 < ys.length := List.length_pos_iff.2 h1
          simp only
          rw [if_pos (by omega)]
          have hc1 : c.count - 1 = (ys.length : Int) := by omega
          rw [hc1, h.tup]
          obtain ⟨s', ns', e, k1, k2⟩ := removeAll_val A hts (r := removeRule A (A.ofInt ys.length))
            (δ := List.zipWith (fun x m => A.sub x m) y (List.zipWith (fun x m => A.sub m (A.div (A.sub x m) (A.ofInt ys.length))) y c.means))
            (by simp [hyl, h.mlen]) (P := fun s ns => KeyInv (keyOf ts) s ∧ KeyInv (keyOf ts) ns)
            (fun sums => ⟨fun t ht a ha ns hns => ⟨hns.1, hns.2.set ⟨t, ht, a, ha, rfl⟩ _⟩,
              fun t ht a ha b hb ns hns => ⟨hns.1, hns.2.set ⟨t, ht, a, ha, rfl⟩ _⟩⟩)
            (fun s ns hh => ⟨hh.1.copy hh.2, hh.2⟩) ts (fun _ h => h) c.sums c.newSums ⟨h.keys, h.nkeys⟩
          rw [e]
          exact ⟨_, rfl, h.win, h.dec, rfl, by simp [hyl, h.mlen], h.cap, h.live, hsn, rfl, by show ys.length < w; omega, k1, k2,
            T.evict xs y ys _ _ _ _ _ hy hf h1 hyl h.mlen h.keys h.nkeys hI e⟩
      · have hlen : ¬ (c.queue.len : Int) = c.window := by
          rw [h.win, Ring.len, hq]; exact_mod_cast hf
        rw [if_neg hlen]
        have hle := lastN_length_le hw xs
        refine ⟨c, rfl, h.win, h.dec, h.tup, h.mlen, h.cap, h.live, ?_, ?_, ?_, h.keys, h.nkeys, T.room xs _ _ _ (.inr (by omega)) hI⟩
        · rw [hq, lastN_snoc_room hw _ _ hf]
        · rw [hq]; exact h.count
        · rw [hq]; omega
    obtain ⟨c1, e, b1, b2, b3, b4, b5, b6, b7, b8, b9, b10, b11, b12⟩ := main
    rw [e]
    simp only [pushPut]
    rw [Ring.put_ok b6 (by have := Ring.le_roundUp w; omega)]
    simp only
    exact key { c1 with queue := { c1.queue with items := c1.queue.items ++ [x] } } b1 b2 b3 b4 b5 b6 (fun _ => b7)
      (by show c1.count + 1 = _; rw [b8, ← b7]; simp) b10 b11 b12

theorem zeroMap_zero (m : Map F) : AllZero A (zeroMap A m) := by
  intro k v h
  unfold zeroMap at h
  cases hk : m k with
  | none => simp [hk] at h
  | some u => simpa [hk] using h.symm

theorem clear_book {n w : Nat} {d : Option F} {ts : List Tuple} {xs : List (List F)} {c : Core F} (h : Book n w d ts xs c) :
    Book n w d ts [] (clear A c) := by
  refine ⟨h.win, h.dec, h.tup, by simp [clear, h.mlen], by simp, ?_, rfl, fun _ => ?_, ?_, zeroMap_keys A h.keys, zeroMap_keys A h.nkeys⟩ <;>
    simp [clear, Ring.new, h.win, lastN]

/-- The errors of the calls with a wrong number of values. -/
def arityErrors (n : Nat) (ops : List (MOp (List F))) : List Err :=
  (ops.filter fun o => !okArity n o).map fun _ => "tried to push a wrong number of values"

theorem run_track {n w : Nat} {d : Option F} {ts : List Tuple} (hts : ∀ t ∈ ts, TOK n t)
    {I I' : List (List F) → List F → Map F → Map F → Prop} (T : Track A n w d ts I I') {c : Core F} (h : Book n w d ts [] c)
    (hI : I [] c.means c.sums c.newSums) (ops : List (MOp (List F))) :
    ∃ c', run A c ops = .val (c', arityErrors n ops) ∧ Book n w d ts (since (ops.filter (okArity n))) c' ∧
      I (since (ops.filter (okArity n))) c'.means c'.sums c'.newSums := by
  have := Go.runOps_inv (step := logged (step A))
    (I := fun ops (s : Core F × List Err) => s.2 = arityErrors n ops ∧ Book n w d ts (since (ops.filter (okArity n))) s.1 ∧
      I (since (ops.filter (okArity n))) s.1.means s.1.sums s.1.newSums)
    (fun ops s o hi => by
      obtain ⟨c, l⟩ := s
      obtain ⟨hl, hb, hi⟩ := hi
      simp only at hl hb hi
      subst hl
      cases o with
      | push x =>
        by_cases hx : x.length = n
        · obtain ⟨c', e, b, i⟩ := push_track A hts T hb hi hx
          refine ⟨(c', arityErrors n ops), by simp [logged, step, e], ?_, ?_⟩
          · simp [arityErrors, okArity, hx]
          · rw [show (ops ++ [MOp.push x]).filter (okArity n) = ops.filter (okArity n) ++ [MOp.push x] by simp [okArity, hx], since_push]
            exact ⟨b, i⟩
        · refine ⟨(c, arityErrors n ops ++ ["tried to push a wrong number of values"]), ?_, ?_, ?_⟩
          · simp only [logged, step, push]
            rw [if_pos (by rw [hb.mlen]; exact hx)]
            rfl
          · simp [arityErrors, okArity, hx]
          · rw [show (ops ++ [MOp.push x]).filter (okArity n) = ops.filter (okArity n) by simp [okArity, hx]]
            exact ⟨hb, hi⟩
      | clear =>
        refine ⟨(clear A c, arityErrors n ops), by simp [logged, step], by simp [arityErrors, okArity], ?_⟩
        rw [show (ops ++ [(MOp.clear : MOp (List F))]).filter (okArity n) = ops.filter (okArity n) ++ [MOp.clear] by simp [okArity], since_clear]
        refine ⟨clear_book A hb, ?_⟩
        have := T.zero _ _ (zeroMap_keys A hb.keys) (zeroMap_keys A hb.nkeys) (zeroMap_zero A c.sums) (zeroMap_zero A c.newSums)
        simpa only [clear, List.map_const', hb.mlen] using this)
    (c, []) [] ⟨rfl, h, hI⟩ ops
  obtain ⟨⟨c', l⟩, e, hl, hb, hi⟩ := this
  simp only [List.nil_append] at hl hb hi
  subst hl
  exact ⟨c', e, hb, hi⟩

/-! ### New cores -/

theorem forEach_zero (l : List Tuple) (m : Map F) :
    ∃ m', forEach (fun a m => Go.val (Map.set m (Joint.hash a) (A.ofInt 0), [])) l m = .val (m', []) ∧
      (∀ a ∈ l, m' (Joint.hash a) = some (A.ofInt 0)) ∧ ∀ k, (∀ a ∈ l, Joint.hash a ≠ k) → m' k = m k := by
  induction l generalizing m with
  | nil => exact ⟨m, rfl, by simp, fun _ _ => rfl⟩
  | cons a l ih =>
    obtain ⟨m', e, h1, h2⟩ := ih (Map.set m (Joint.hash a) (A.ofInt 0))
    refine ⟨m', by simp [forEach, e], ?_, ?_⟩
    · intro b hb
      by_cases hbl : ∃ c ∈ l, Joint.hash c = Joint.hash b
      · obtain ⟨c, hc, he⟩ := hbl
        rw [← he, h1 c hc]
      · rcases List.mem_cons.1 hb with rfl | hb
        · rw [h2 _ (fun c hc he => hbl ⟨c, hc, he⟩)]
          simp [Map.set]
        · exact absurd ⟨b, hb, rfl⟩ hbl
    · intro k hk
      rw [h2 k (fun c hc => hk c (List.mem_cons_of_mem _ hc)), Map.set, Function.update_of_ne]
      exact (hk a List.mem_cons_self).symm

theorem initSums_val (ts : List Tuple) (m : Map F) :
    ∃ m', initSums A ts m = .val m' ∧ (∀ t ∈ ts, ∀ a, Under a t → m' (Joint.hash a) = some (A.ofInt 0)) ∧
      ∀ k, (∀ t ∈ ts, ∀ a, Under a t → Joint.hash a ≠ k) → m' k = m k := by
  induction ts generalizing m with
  | nil => exact ⟨m, rfl, by simp, fun _ _ => rfl⟩
  | cons t ts ih =>
    obtain ⟨m1, e1, a1, b1⟩ := forEach_zero A (visited false t) m
    obtain ⟨m2, e2, a2, b2⟩ := ih m1
    refine ⟨m2, by simp only [initSums, iter_eq, e1]; exact e2, ?_, ?_⟩
    · intro u hu a ha
      by_cases h : ∃ v ∈ ts, ∃ b, Under b v ∧ Joint.hash b = Joint.hash a
      · obtain ⟨v, hv, b, hb, he⟩ := h
        rw [← he, a2 v hv b hb]
      · rcases List.mem_cons.1 hu with rfl | hu
        · rw [b2 _ (fun v hv b hb he => h ⟨v, hv, b, hb, he⟩), a1 a (mem_visited.2 ha)]
        · exact absurd ⟨u, hu, a, ha, rfl⟩ h
    · intro k hk
      rw [b2 k (fun v hv => hk v (List.mem_cons_of_mem _ hv)), b1 k (fun a ha => hk t List.mem_cons_self a (mem_visited.1 ha))]

/-- A new core. -/
theorem mk_book (cfg : Config F) {w n : Nat} (hw : cfg.window = some (w : Int)) (hv : Joint.varsOf cfg = n) :
    ∃ c, mk A cfg = .val c ∧ Book n w cfg.decay (cfg.sums.getD []) [] c ∧ c.means = List.replicate n (A.ofInt 0) ∧ AllZero A c.sums ∧
      AllZero A c.newSums := by
  obtain ⟨m, e, h1, h2⟩ := initSums_val A (cfg.sums.getD []) (fun _ => (none : Option F))
  have hk : KeyInv (keyOf (cfg.sums.getD [])) m := by
    intro k
    by_cases hk : keyOf (cfg.sums.getD []) k
    · obtain ⟨t, ht, a, ha, rfl⟩ := hk
      rw [h1 t ht a ha]
      simp only [ne_eq, reduceCtorEq, not_false_eq_true, true_iff]
      exact ⟨t, ht, a, ha, rfl⟩
    · rw [h2 k (fun t ht a ha he => hk ⟨t, ht, a, ha, he⟩)]
      simp [hk]
  have hz : AllZero A m := by
    intro k v hkv
    obtain ⟨t, ht, a, ha, rfl⟩ := (hk k).1 (by rw [hkv]; simp)
    rw [h1 t ht a ha] at hkv
    exact (Option.some.inj hkv).symm
  refine ⟨_, by unfold mk; rw [e], ⟨?_, rfl, rfl, ?_, by simp, ?_, rfl, fun _ => ?_, ?_, hk, hk⟩, ?_, hz, hz⟩
  all_goals simp [hw, hv, Ring.new, lastN]

/-- What `NewCore` lets through. -/
theorem newCore_ok [GoOrd F] {cfg : Config F} {c : Core F} (h : newCore A cfg = .val (.ok c)) :
    ∃ n w : Nat, cfg.window = some (w : Int) ∧ Joint.varsOf cfg = n ∧ 2 ≤ n ∧
      (∀ t ∈ cfg.sums.getD [], t.length = n ∧ (∀ k ∈ t, 0 ≤ k) ∧ abs t ≠ 0) ∧
      (∀ d, cfg.decay = some d → GoOrd.le d (A.ofInt 0) = false ∧ GoOrd.le (A.ofInt 1) d = false ∧ w = 0) ∧
      Book n w cfg.decay (cfg.sums.getD []) [] c ∧ c.means = List.replicate n (A.ofInt 0) ∧ AllZero A c.sums ∧ AllZero A c.newSums := by
  unfold newCore at h
  cases hv : Joint.validate (A.ofInt 0) (A.ofInt 1) (Joint.setDefaults cfg) with
  | some e => rw [hv] at h; exact absurd h (by simp)
  | none =>
    rw [hv] at h
    simp only at h
    unfold Joint.validate Joint.setDefaults at hv
    simp only at hv
    cases hw : cfg.window with
    | none => rw [hw] at hv; simp at hv
    | some w =>
      rw [hw] at hv
      simp only at hv
      by_cases h0 : w < 0
      · rw [if_pos h0] at hv; simp at hv
      rw [if_neg h0] at hv
      by_cases h1 : ∃ v, cfg.vars = some v ∧ v < 2
      · obtain ⟨v, e1, e2⟩ := h1
        simp [e1, e2] at hv
      rw [if_neg (by cases e1 : cfg.vars with | none => simp | some v => simp only [decide_eq_true_eq]; exact fun c => h1 ⟨v, e1, c⟩)] at hv
      cases hd : Joint.validateDecay (A.ofInt 0) (A.ofInt 1) w cfg.decay with
      | some e => rw [hd] at hv; simp at hv
      | none =>
        rw [hd] at hv
        simp only at hv
        obtain ⟨⟨n, hts⟩, hor⟩ := (Joint.validateSums_none _).1 hv
        simp only [Option.getD_some] at hts hor
        have hvars : ∃ n : Nat, Joint.varsOf cfg = n ∧ 2 ≤ n ∧ ∀ t ∈ cfg.sums.getD [], t.length = n := by
          cases hvs : cfg.vars with
          | some v =>
            have h1 : 2 ≤ v := not_lt.1 fun c => h1 ⟨v, hvs, c⟩
            refine ⟨v.toNat, by unfold Joint.varsOf; rw [hvs]; simp; omega, by omega, fun t ht => ?_⟩
            have h3 := (hts t ht).2.2.1 v hvs
            rw [(hts t ht).1]; omega
          | none =>
            rw [hvs] at hor
            have hne : cfg.sums.getD [] ≠ [] := by simpa using hor
            cases hs : cfg.sums.getD [] with
            | nil => exact absurd hs hne
            | cons t ts =>
              have h3 := hts t (by rw [hs]; exact List.mem_cons_self)
              refine ⟨n, ?_, h3.2.1, fun u hu => (hts u (by rw [hs]; exact hu)).1⟩
              unfold Joint.varsOf
              rw [hvs, hs]
              simp [h3.1]
        obtain ⟨n', hv', hn2, hl⟩ := hvars
        have hw' : (w.toNat : Int) = w := by omega
        obtain ⟨c', e, hb, r⟩ := mk_book A (Joint.setDefaults cfg) (w := w.toNat) (n := n') (by simp [Joint.setDefaults, hw, hw'])
          (by rw [← hv']; rfl)
        rw [e] at h
        simp only [Go.val.injEq, Except.ok.injEq] at h
        subst h
        refine ⟨n', w.toNat, by rw [hw'], hv', hn2, fun t ht => ⟨hl t ht, (hts t ht).2.2.2⟩, fun d hdd => ?_, ?_, r⟩
        · rw [hdd] at hd
          unfold Joint.validateDecay at hd
          simp only at hd
          by_cases h2 : ((GoOrd.le d (A.ofInt 0)) || (GoOrd.le (A.ofInt 1) d)) = true
          · rw [if_pos h2] at hd; simp at hd
          rw [if_neg h2] at hd
          by_cases h3 : w > 0
          · rw [if_pos h3] at hd; simp at hd
          simp only [Bool.or_eq_true, not_or, Bool.not_eq_true] at h2
          exact ⟨h2.1, h2.2, by omega⟩
        · simpa [Joint.setDefaults] using hb

/-- From a new core. -/
theorem core_track [GoOrd F] {cfg : Config F} {c : Core F} (hn : newCore A cfg = .val (.ok c)) (hs : ∀ t ∈ cfg.sums.getD [], ∀ k ∈ t, k ≤ 65)
    {n w : Nat} (hw : cfg.window = some (w : Int)) (hv : Joint.varsOf cfg = n) {I I' : List (List F) → List F → Map F → Map F → Prop}
    (T : Track A n w cfg.decay (cfg.sums.getD []) I I') (ops : List (MOp (List F))) :
    ∃ c', run A c ops = .val (c', arityErrors n ops) ∧ Book n w cfg.decay (cfg.sums.getD []) (since (ops.filter (okArity n))) c' ∧
      I (since (ops.filter (okArity n))) c'.means c'.sums c'.newSums := by
  obtain ⟨n', w', hw', hv', -, hts, -, hb, hm, hz1, hz2⟩ := newCore_ok A hn
  have e1 : n' = n := by rw [hv] at hv'; exact_mod_cast hv'.symm
  have e2 : w' = w := by rw [hw] at hw'; exact_mod_cast (Option.some.inj hw').symm
  subst e1; subst e2
  refine run_track A (fun t ht => ⟨(hts t ht).1, fun k hk => ⟨(hts t ht).2.1 k hk, hs t ht k hk⟩⟩) T hb ?_ ops
  rw [hm]
  exact T.zero _ _ hb.keys hb.nkeys hz1 hz2

/-! ### Panics -/

theorem forEach_no_err {α σ : Type} {body : α → σ → Go (σ × List Err)} {l : List α}
    (h : ∀ a ∈ l, ∀ s, body a s ≠ .hang ∧ ∀ s' e, body a s = .val (s', e) → e = []) (s : σ) :
    forEach body l s ≠ .hang ∧ ∀ s' e, forEach body l s = .val (s', e) → e = [] := by
  induction l generalizing s with
  | nil => simp [forEach]
  | cons a l ih =>
    have h1 := h a List.mem_cons_self s
    simp only [forEach]
    rcases e : body a s with ⟨s1, e1⟩ | _ | _
    · rw [e] at h1
      have h2 := ih (fun a ha => h a (List.mem_cons_of_mem _ ha)) s1
      have h3 := h1.2 s1 e1 rfl
      subst h3
      simp only
      rcases e' : forEach body l s1 with ⟨s2, e2⟩ | _ | _
      · rw [e'] at h2
        have := h2.2 s2 e2 rfl
        subst this
        simp
      · simp
      · exact absurd e' h2.1
    · simp
    · exact absurd e h1.1

theorem forEach_panic {α σ : Type} {body : α → σ → Go (σ × List Err)} {l : List α} (h : ∀ a ∈ l, ∀ s, body a s ≠ .hang)
    (hp : ∃ a ∈ l, ∀ s, body a s = .panic) (s : σ) : forEach body l s = .panic := by
  induction l generalizing s with
  | nil => obtain ⟨a, ha, _⟩ := hp; simp at ha
  | cons a l ih =>
    simp only [forEach]
    by_cases ha : ∀ s, body a s = .panic
    · rw [ha s]
    · have hp' : ∃ a ∈ l, ∀ s, body a s = .panic := by
        obtain ⟨b, hb, h'⟩ := hp
        rcases List.mem_cons.1 hb with rfl | hb
        · exact absurd h' ha
        · exact ⟨b, hb, h'⟩
      rcases e : body a s with ⟨s1, e1⟩ | _ | _
      · simp only [ih (fun a ha => h a (List.mem_cons_of_mem _ ha)) hp' s1]
      · rfl
      · exact absurd e (h a List.mem_cons_self s)

theorem multinomLoop_ne_hang (r : Int) (a b : Tuple) : multinomLoop r a b ≠ .hang := by
  have := Joint.multinomLoop_sat r a b
  intro h
  rw [h] at this
  exact this

/-- A visit neither blocks nor fails, whatever the exponents. -/
theorem visit_no_err {n : Nat} (r : Rule F) {δ : List F} {a b : Tuple} (ha : a.length = n) (hb : b.length = n) (hδ : δ.length = n)
    (sums ns : Map F) : visit A r δ sums a b ns ≠ .hang ∧ ∀ s' e, visit A r δ sums a b ns = .val (s', e) → e = [] := by
  unfold visit pow
  rw [if_neg (by simp [hδ, hb])]
  simp only
  by_cases h0 : abs b = 0
  · rw [if_pos h0]; simp
  rw [if_neg h0]
  by_cases he : eq b a = true
  · rw [if_pos he]; simp
  rw [if_neg he]
  unfold visitPart multinom
  rw [if_neg (by simp [ha, hb])]
  have := multinomLoop_ne_hang 1 a b
  rcases e : multinomLoop 1 a b with v | _ | _
  · simp only [sub]
    rw [if_neg (by simp [ha, hb])]
    simp
  · simp
  · exact absurd e this

theorem updateTuple_no_err {n : Nat} (r : Rule F) (rev : Bool) {δ : List F} {t : Tuple} (ht : t.length = n) (hδ : δ.length = n)
    (sums ns : Map F) : updateTuple A r rev δ sums t ns ≠ .hang ∧ ∀ s' e, updateTuple A r rev δ sums t ns = .val (s', e) → e = [] := by
  unfold updateTuple
  rw [iter_eq]
  refine forEach_no_err (fun a ha ns => ?_) ns
  rw [iter_eq]
  have hal : a.length = n := (under_length (mem_visited.1 ha)).trans ht
  exact forEach_no_err (fun b hb ns => visit_no_err A r hal ((under_length (mem_visited.1 hb)).trans hal) hδ sums ns) _

theorem exists_up' {t : Tuple} (h : ∀ k ∈ t, 0 ≤ k) : ∃ u : List Nat, t = Joint.up u := by
  induction t with
  | nil => exact ⟨[], rfl⟩
  | cons k t ih =>
    obtain ⟨u, rfl⟩ := ih fun j hj => h j (List.mem_cons_of_mem _ hj)
    exact ⟨k.toNat :: u, by simp [Joint.up, Int.toNat_of_nonneg (h k List.mem_cons_self)]⟩

theorem binom_zero (y : Int) (b : Int) (hb : b = 0) : binom y b = .val 1 := if_pos (Or.inl hb)

/-- For an exponent of 66 or more there is a smaller tuple whose coefficient divides by zero. -/
theorem exists_panic {t : Tuple} (h0 : ∀ k ∈ t, 0 ≤ k) (h66 : ∃ k ∈ t, 66 ≤ k) :
    ∃ b, Under b t ∧ b ≠ t ∧ (b.sum = 1 ∨ b.sum = 2) ∧ (∀ k ∈ b, 0 ≤ k) ∧ ∀ r, multinomLoop r t b = .panic := by
  induction t with
  | nil => obtain ⟨k, hk, _⟩ := h66; simp at hk
  | cons y t ih =>
    have hy := h0 y List.mem_cons_self
    by_cases h : 66 ≤ y
    · have hb : ∃ k : Int, (k = 1 ∨ k = 2) ∧ binom y k = .panic := by
        by_cases h1 : y = 66
        · subst h1
          exact ⟨2, Or.inr rfl, (binom_panic_iff (n := 66) (k := 2) (by decide) (by decide)).2 (by decide +kernel)⟩
        · refine ⟨1, Or.inl rfl, ?_⟩
          have := (binom_panic_iff (n := y.toNat) (k := 1) (by decide) (by omega)).2 (by
            have h1 : 2 ^ 64 ∣ (66).factorial := by decide +kernel
            rw [Nat.factorial_one, Nat.one_mul]
            exact h1.trans (Nat.factorial_dvd_factorial (by omega)))
          rwa [Int.toNat_of_nonneg (by omega)] at this
      obtain ⟨k, hk, hp⟩ := hb
      refine ⟨k :: t.map fun _ => 0, ?_, ?_, ?_, ?_, fun r => by simp only [multinomLoop, hp]⟩
      · refine .cons (by omega) ?_
        have h0' : ∀ k ∈ t, 0 ≤ k := fun k hk => h0 k (List.mem_cons_of_mem _ hk)
        clear ih h0 h66
        induction t with
        | nil => exact .nil
        | cons z t ih =>
          exact .cons ⟨le_rfl, h0' z List.mem_cons_self⟩ (ih fun k hk => h0' k (List.mem_cons_of_mem _ hk))
      · intro c
        have := (List.cons.inj c).1
        omega
      · simpa using hk
      · intro j hj
        rcases List.mem_cons.1 hj with rfl | hj
        · omega
        · obtain ⟨_, _, rfl⟩ := List.mem_map.1 hj; rfl
    · have h66' : ∃ k ∈ t, 66 ≤ k := by
        obtain ⟨k, hk, h'⟩ := h66
        rcases List.mem_cons.1 hk with rfl | hk
        · exact absurd h' h
        · exact ⟨k, hk, h'⟩
      obtain ⟨b, h1, h2, h3, h4, h5⟩ := ih (fun k hk => h0 k (List.mem_cons_of_mem _ hk)) h66'
      refine ⟨0 :: b, .cons ⟨le_rfl, hy⟩ h1, fun c => h2 (List.cons.inj c).2, by simpa using h3, ?_, fun r => ?_⟩
      · intro j hj
        rcases List.mem_cons.1 hj with rfl | hj
        · exact le_rfl
        · exact h4 j hj
      · simp only [multinomLoop, binom_zero y 0 rfl]
        exact h5 _

theorem updateTuple_panic {n : Nat} (r : Rule F) (rev : Bool) {δ : List F} {t : Tuple} (ht : t.length = n) (hδ : δ.length = n)
    (h0 : ∀ k ∈ t, 0 ≤ k) (h66 : ∃ k ∈ t, 66 ≤ k) (sums ns : Map F) : updateTuple A r rev δ sums t ns = .panic := by
  obtain ⟨b, h1, h2, h3, h4, h5⟩ := exists_panic h0 h66
  have hself : Under t t := by
    clear h1 h2 h3 h4 h5 h66 ht
    unfold Under
    induction t with
    | nil => exact .nil
    | cons x t ih => exact .cons ⟨h0 x List.mem_cons_self, le_rfl⟩ (ih fun k hk => h0 k (List.mem_cons_of_mem _ hk))
  have hbl : b.length = n := (under_length h1).trans ht
  obtain ⟨b', rfl⟩ := exists_up' h4
  have hsum : ((b'.sum : Nat) : Int) = (Joint.up b').sum := by
    unfold Joint.up
    clear h1 h2 h3 h4 h5 hbl
    induction b' with
    | nil => rfl
    | cons x l ih => simp [ih]
  unfold updateTuple
  rw [iter_eq]
  refine forEach_panic (fun a ha ns => ?_) ⟨t, mem_visited.2 hself, fun ns => ?_⟩ ns
  · have hal : a.length = n := (under_length (mem_visited.1 ha)).trans ht
    rw [iter_eq]
    exact (forEach_no_err (fun b hb ns => visit_no_err A r hal ((under_length (mem_visited.1 hb)).trans hal) hδ sums ns) _).1
  · rw [iter_eq]
    refine forEach_panic (fun b hb ns => (visit_no_err A r ht ((under_length (mem_visited.1 hb)).trans ht) hδ sums ns).1)
      ⟨Joint.up b', mem_visited.2 h1, fun ns => ?_⟩ _
    unfold visit pow
    rw [if_neg (by simp only [hδ, hbl]; simp)]
    simp only
    rw [Joint.abs_up (by omega), if_neg (by omega), if_neg (by simpa [eq] using h2)]
    unfold visitPart multinom
    rw [if_neg (by simp only [ht, hbl]; simp), h5]

theorem updateAll_panic {n : Nat} (r : Rule F) {δ : List F} (hδ : δ.length = n) {ts : List Tuple} (hl : ∀ t ∈ ts, t.length = n)
    (h0 : ∀ t ∈ ts, ∀ k ∈ t, 0 ≤ k) (h66 : ∃ t ∈ ts, ∃ k ∈ t, 66 ≤ k) (sums ns : Map F) : updateAll A r δ sums ts ns = .panic := by
  induction ts generalizing ns with
  | nil => obtain ⟨t, ht, _⟩ := h66; simp at ht
  | cons t ts ih =>
    simp only [updateAll]
    by_cases h : ∃ k ∈ t, 66 ≤ k
    · rw [updateTuple_panic A r true (hl t List.mem_cons_self) hδ (h0 t List.mem_cons_self) h]
    · have h' : ∃ t ∈ ts, ∃ k ∈ t, 66 ≤ k := by
        obtain ⟨u, hu, hk⟩ := h66
        rcases List.mem_cons.1 hu with rfl | hu
        · exact absurd hk h
        · exact ⟨u, hu, hk⟩
      have h2 := updateTuple_no_err A r true (hl t List.mem_cons_self) hδ sums ns
      rcases e : updateTuple A r true δ sums t ns with ⟨s, er⟩ | _ | _
      · have := h2.2 s er e
        subst this
        exact ih (fun t ht => hl t (List.mem_cons_of_mem _ ht)) (fun t ht => h0 t (List.mem_cons_of_mem _ ht)) h' s
      · rfl
      · exact absurd e h2.1

/-- With an exponent of 66 or more the first `Push` of the right number of values panics. -/
theorem push_panic {n w : Nat} {d : Option F} {ts : List Tuple} {c : Core F} (h : Book n w d ts [] c) (hl : ∀ t ∈ ts, t.length = n)
    (h0 : ∀ t ∈ ts, ∀ k ∈ t, 0 ≤ k) (h66 : ∃ t ∈ ts, ∃ k ∈ t, 66 ≤ k) {x : List F} (hx : x.length = n) : push A c x = .panic := by
  have hadd : ∀ c1 : Core F, c1.tuples = ts → c1.means.length = n → pushAdd A c1 x = .panic := by
    intro c1 h1 h2
    unfold pushAdd
    cases c1.decay with
    | none => simp only [add, finish, h1]; rw [updateAll_panic A _ (by simp [hx, h2]) hl h0 h66]
    | some dd => simp only [addDecay, finish, h1]; rw [updateAll_panic A _ (by simp [hx, h2]) hl h0 h66]
  unfold push
  rw [if_neg (by rw [h.mlen, hx]; simp)]
  by_cases hw : w = 0
  · subst hw
    rw [if_neg (by rw [h.win]; simp)]
    exact hadd c h.tup h.mlen
  · rw [if_pos (by rw [h.win]; exact_mod_cast hw)]
    have hq : c.queue.items = [] := by rw [h.q hw]; simp
    unfold evict
    rw [if_neg (by rw [Ring.len, hq, h.win]; simp; omega)]
    simp only [pushPut]
    rw [Ring.put_ok h.live (by rw [hq, h.cap]; have := Ring.le_roundUp w; simp; omega)]
    exact hadd _ h.tup h.mlen

end Verif.JFP
