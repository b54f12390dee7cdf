import Verif.Proofs.JointColumn
import Verif.Proofs.JointFPVal
import Verif.Spec.Units
import Mathlib.Algebra.Group.Nat.Even
import Mathlib.Algebra.BigOperators.Group.List.Basic

/-! # Changes of sign and scale that an arithmetic respects

If the operations of an arithmetic commute with a family of maps of the numbers (negation, multiplication by powers of two), then so do the
closed forms `mst` and `gst` of the cores. -/

namespace Verif.FP
open Verif.Spec Verif.MathUtil

/-- `act g` is a change of unit of degree `g`; numbers of degree 0 have no unit. -/
structure Graded {F : Type} (A : Arith F) (G : Type) [AddCommMonoid G] where
  act : G → F → F
  act0 : ∀ x, act 0 x = x
  zero : ∀ g, act g (A.ofInt 0) = A.ofInt 0
  add : ∀ g x y, A.add (act g x) (act g y) = act g (A.add x y)
  sub : ∀ g x y, A.sub (act g x) (act g y) = act g (A.sub x y)
  mul : ∀ g h x y, A.mul (act g x) (act h y) = act (g + h) (A.mul x y)
  div : ∀ g x y, A.div (act g x) y = act g (A.div x y)
  pow : ∀ g x k, A.pow (act g x) k = act (k • g) (A.pow x k)

namespace Graded
variable {F : Type} {A : Arith F} {G : Type} [AddCommMonoid G] (S : Graded A G)

theorem mul_l (g : G) (c x : F) : A.mul c (S.act g x) = S.act g (A.mul c x) := by
  have := S.mul 0 g c x
  rwa [S.act0, zero_add] at this

theorem mul_r (g : G) (c x : F) : A.mul (S.act g x) c = S.act g (A.mul x c) := by
  have := S.mul g 0 x c
  rwa [S.act0, add_zero] at this

theorem fold {op : F → F → F} {g : G} (hop : ∀ x y, op (S.act g x) (S.act g y) = S.act g (op x y)) {f f' : Nat → F} (n i : Nat) (acc : F)
    (h : ∀ j, i ≤ j → j < i + n → f' j = S.act g (f j)) : foldV op f' n i (S.act g acc) = S.act g (foldV op f n i acc) := by
  induction n generalizing i acc with
  | zero => rfl
  | succ n ih =>
    simp only [foldV]
    rw [h i le_rfl (by omega), hop]
    exact ih (i + 1) _ fun j h1 h2 => h j (by omega) (by omega)

theorem smul_split (u : G) {i k : Nat} (h : i ≤ k) : i • u + (k - i) • u = k • u := by
  rw [← add_nsmul]
  congr 1
  omega

/-- The sums after a change of unit. -/
def sums (u : G) (s : Nat → F) : Nat → F := fun k => S.act (k • u) (s k)

theorem sums_zero (u : G) : S.sums u (fun _ => A.ofInt 0) = fun _ => A.ofInt 0 := funext fun _ => S.zero _

theorem addV (u : G) (count δ : F) (s : Nat → F) (k : Nat) :
    FP.addV A count (S.act u δ) (S.sums u s) k = S.act (k • u) (FP.addV A count δ s k) := by
  unfold FP.addV sums
  rw [S.pow, S.mul_l, S.add]
  refine S.fold (S.add _) _ _ _ fun j h1 h2 => ?_
  rw [S.div, S.pow, S.mul_l _ (coefV A k j), S.mul, smul_split u (by omega)]

theorem decayV (u : G) (d δ : F) (s : Nat → F) (k : Nat) :
    FP.decayV A d (S.act u δ) (S.sums u s) k = S.act (k • u) (FP.decayV A d δ s k) := by
  unfold FP.decayV sums
  rw [S.pow, S.mul_l (k • u) _ (s k), S.mul_l (k • u) _ (A.pow δ k), S.add]
  refine S.fold (S.add _) _ _ _ fun j h1 h2 => ?_
  rw [S.mul_l _ d, S.pow, S.mul_l _ (coefV A k j), S.mul_r _ (A.sub (A.ofInt 1) d), S.mul, smul_split u (by omega)]

theorem removeV (u : G) (count δ : F) (s : Nat → F) (k : Nat) :
    FP.removeV A count (S.act u δ) (S.sums u s) k = S.act (k • u) (FP.removeV A count δ s k) := by
  unfold FP.removeV sums
  rw [S.pow, S.mul_l, S.sub]
  refine S.fold (S.sub _) _ _ _ fun j h1 h2 => ?_
  rw [S.div, S.pow, S.mul_l _ (coefV A k j), S.mul, smul_split u (by omega)]

theorem remM (u : G) (count δ : F) (s : Nat → F) (f k : Nat) :
    FP.remM A count (S.act u δ) (S.sums u s) f k = S.act (k • u) (FP.remM A count δ s f k) := by
  induction f generalizing k with
  | zero => rfl
  | succ f ih =>
    simp only [FP.remM]
    by_cases hk : 2 ≤ k
    · rw [if_pos hk, if_pos hk, ← S.removeV]
      congr 1
      funext i
      unfold sums
      by_cases hi : i < k
      · rw [if_pos hi]; simp only; rw [if_pos hi, ← ih]; rfl
      · rw [if_neg hi]; simp only; rw [if_neg hi]
    · rw [if_neg hk, if_neg hk]; rfl

/-- The state after a change of unit. -/
def st (u : G) (p : F × (Nat → F)) : F × (Nat → F) := (S.act u p.1, S.sums u p.2)

theorem roomM (u : G) (w : Nat) (pts : List F) (p : F × (Nat → F)) :
    FP.roomM A w (pts.map (S.act u)) (S.st u p) = S.st u (FP.roomM A w pts p) := by
  unfold FP.roomM
  rw [JFP.lastN_map, List.length_map]
  by_cases h : w ≠ 0 ∧ (lastN w pts).length = w
  · rw [if_pos h, if_pos h]
    match lastN w pts with
    | [] => simp [st, S.sums_zero, S.zero]
    | [_] => simp [st, S.sums_zero, S.zero]
    | y :: z :: ys =>
      simp only [List.map_cons, List.length_cons, List.length_map]
      simp only [st]
      rw [S.sub, S.div, S.sub, S.sub]
      congr 1
      funext k
      rw [S.remM]; rfl
  · rw [if_neg h, if_neg h]

theorem mstR (u : G) (w : Nat) (d : Option F) (xs : List F) : FP.mstR A w d (xs.map (S.act u)) = S.st u (FP.mstR A w d xs) := by
  induction xs with
  | nil => simp only [FP.mstR, List.map_nil, st, S.sums_zero, S.zero]
  | cons x r ih =>
    simp only [List.map_cons, FP.mstR]
    have hl : (lastN w ((List.map (S.act u) r).reverse ++ [S.act u x])).length = (lastN w (r.reverse ++ [x])).length := by
      rw [← List.map_reverse, ← List.map_singleton, ← List.map_append, JFP.lastN_map, List.length_map]
    rw [ih, ← List.map_reverse, S.roomM]
    rw [← List.map_reverse] at hl
    rw [hl]
    generalize FP.roomM A w r.reverse (FP.mstR A w d r) = p
    cases d with
    | none =>
      simp only [st]
      rw [S.sub, S.div, S.add]
      congr 1
      funext k
      by_cases hk : 2 ≤ k
      · rw [if_pos hk, S.addV]; simp only [sums]; rw [if_pos hk]
      · rw [if_neg hk]; simp only [sums]; rw [if_neg hk]
    | some dd =>
      simp only [st]
      rw [S.sub, S.mul_l, S.add]
      congr 1
      funext k
      by_cases hk : 2 ≤ k
      · rw [if_pos hk, S.decayV]; simp only [sums]; rw [if_pos hk]
      · rw [if_neg hk]; simp only [sums]; rw [if_neg hk]

theorem mst (u : G) (w : Nat) (d : Option F) (xs : List F) : FP.mst A w d (xs.map (S.act u)) = S.st u (FP.mst A w d xs) := by
  unfold FP.mst
  rw [← List.map_reverse, S.mstR]

/-! ## The joint core

Here the code itself is followed step by step, so that overlapping tuples are covered, too. -/

open Verif.Joint (Tuple Map Under visited mem_visited iter iter_eq forEach)
open Verif.JFP (Rule)

/-- The degree of a tuple, given the degrees of the variables. -/
def deg : List G → Tuple → G
  | g :: u, k :: a => k.toNat • g + deg u a
  | _, _ => 0

/-- A point after a change of units, one per variable. -/
abbrev pt (u : List G) (x : List F) : List F := onVars S.act u x

theorem pt_nil (x : List F) : S.pt [] x = x := by cases x <;> rfl

theorem pt_length (u : List G) (x : List F) : (S.pt u x).length = x.length := by
  induction u generalizing x with
  | nil => rw [S.pt_nil]
  | cons g u ih => cases x <;> simp [pt, onVars, ih]

theorem pt_getD (u : List G) (x : List F) (hu : u.length = x.length) (i : Nat) :
    (S.pt u x).getD i (A.ofInt 0) = S.act (u.getD i 0) (x.getD i (A.ofInt 0)) := by
  induction u generalizing x i with
  | nil => obtain rfl := List.length_eq_zero_iff.1 hu.symm; simp [pt, onVars, S.act0]
  | cons g u ih =>
    match x, hu with
    | y :: x, hu =>
      cases i with
      | zero => simp [pt, onVars]
      | succ i => simpa [pt, onVars] using ih x (by simpa using hu) i

theorem powLoop (u : List G) (δ : List F) (b : Tuple) (g : G) (r : F) :
    JFP.powLoop A (S.act g r) (S.pt u δ) b = S.act (g + deg u b) (JFP.powLoop A r δ b) ∨ b.length ≠ δ.length := by
  induction δ generalizing u b g r with
  | nil =>
    cases b with
    | nil => left; cases u <;> simp [pt, onVars, JFP.powLoop, deg]
    | cons k b => right; simp
  | cons x δ ih =>
    cases b with
    | nil => right; simp
    | cons k b =>
      cases u with
      | nil =>
        rcases ih [] b g (A.mul r (A.pow x k.toNat)) with h | h
        · left
          simp only [pt, onVars, JFP.powLoop, deg]
          rw [S.mul_r]
          rw [S.pt_nil] at h
          simpa [deg] using h
        · right; simpa using h
      | cons h u =>
        rcases ih u b (g + k.toNat • h) (A.mul r (A.pow x k.toNat)) with h' | h'
        · left
          simp only [pt, onVars, JFP.powLoop, deg]
          rw [S.pow, S.mul, h', add_assoc]
        · right; simpa using h'

theorem pow_ok (u : List G) (δ : List F) (b : Tuple) (hb : b.length = δ.length) :
    JFP.powLoop A (A.ofInt 1) (S.pt u δ) b = S.act (deg u b) (JFP.powLoop A (A.ofInt 1) δ b) := by
  rcases S.powLoop u δ b 0 (A.ofInt 1) with h | h
  · rwa [S.act0, zero_add] at h
  · exact absurd hb h

theorem deg_sub (u : List G) {a b : Tuple} (h : Under b a) (ha : ∀ k ∈ a, k ≤ 65) : deg u b + deg u (JFP.subV a b) = deg u a := by
  unfold Under at h
  induction h generalizing u with
  | nil => cases u <;> simp [deg, JFP.subV]
  | @cons x y b a h h' ih =>
    cases u with
    | nil => simp [deg]
    | cons g u =>
      have hy := ha y List.mem_cons_self
      have hw : wrap (y - x) = y - x := wrap_small (by omega) (by omega)
      have i := ih u (fun k hk => ha k (List.mem_cons_of_mem _ hk))
      unfold JFP.subV at i
      simp only [JFP.subV, List.zipWith_cons_cons, hw, deg]
      rw [← i]
      have e : x.toNat • g + (y - x).toNat • g = y.toNat • g := by
        rw [← add_nsmul]
        congr 1
        omega
      rw [← e]
      abel

/-- A rule that respects the unit. -/
structure RuleOK (r : Rule F) : Prop where
  base : ∀ g x, r.base (S.act g x) = S.act g (r.base x)
  full : ∀ g n x, r.full n (S.act g x) = S.act g (r.full n x)
  part : ∀ g h m n x y, r.part m n (S.act g x) (S.act h y) = S.act (g + h) (r.part m n x y)
  op : ∀ g x y, r.op (S.act g x) (S.act g y) = S.act g (r.op x y)

theorem ruleOK_add (c : F) : S.RuleOK (JFP.addRule A c) :=
  ⟨fun _ _ => rfl, fun g n x => S.mul_l g _ x, fun g h m n x y => by simp only [JFP.addRule]; rw [S.mul_l g _ x, S.mul], S.add⟩

theorem ruleOK_remove (c : F) : S.RuleOK (JFP.removeRule A c) :=
  ⟨fun _ _ => rfl, fun g n x => S.mul_l g _ x, fun g h m n x y => by simp only [JFP.removeRule]; rw [S.mul_l g _ x, S.mul], S.sub⟩

theorem ruleOK_decay (c : F) : S.RuleOK (JFP.decayRule A c) :=
  ⟨fun g x => S.mul_l g _ x, fun g n x => S.mul_l g _ x, fun g h m n x y => by simp only [JFP.decayRule]; rw [S.mul_l g _ x, S.mul_r g, S.mul],
    S.add⟩

/-- A map after a change of units, given the degree of every key. -/
def mp (dg : Int → G) (m : Map F) : Map F := fun h => (m h).map (S.act (dg h))

theorem get_mp (dg : Int → G) (m : Map F) (h : Int) : JFP.get A (S.mp dg m) h = S.act (dg h) (JFP.get A m h) := by
  unfold JFP.get mp
  cases m h with
  | none => exact (S.zero _).symm
  | some v => rfl

theorem set_mp (dg : Int → G) (m : Map F) (h : Int) (v : F) : Map.set (S.mp dg m) h (S.act (dg h) v) = S.mp dg (Map.set m h v) := by
  funext k
  unfold Map.set mp
  by_cases hk : k = h
  · subst hk; simp
  · simp [hk]

theorem copy_mp (dg : Int → G) (m m' : Map F) : Map.copy (S.mp dg m) (S.mp dg m') = S.mp dg (Map.copy m m') := by
  funext k
  simp only [Map.copy, mp]
  cases m' k <;> rfl

theorem zero_mp (dg : Int → G) (m : Map F) : JFP.zeroMap A (S.mp dg m) = S.mp dg (JFP.zeroMap A m) := by
  funext k
  simp only [JFP.zeroMap, mp]
  cases m k with
  | none => rfl
  | some v => simp [S.zero]

/-- The units of the keys agree with those of the tuples. -/
def KeyDeg (u : List G) (dg : Int → G) (n : Nat) (ts : List Tuple) : Prop :=
  ∀ t ∈ ts, JFP.TOK n t ∧ ∀ a, Under a t → dg (Joint.hash a) = deg u a

variable {u : List G} {dg : Int → G} {n : Nat} {ts : List Tuple}

theorem term {r : Rule F} (hr : S.RuleOK r) (δ : List F) (hδ : δ.length = n) {a b : Tuple} (ha : JFP.TOK n a) (hb : Under b a) (base acc : F)
    {look look' : Tuple → F} (hl : look' (JFP.subV a b) = S.act (deg u (JFP.subV a b)) (look (JFP.subV a b))) :
    JFP.termV A r (S.pt u δ) (S.act (deg u a) base) look' a (S.act (deg u a) acc) b = S.act (deg u a) (JFP.termV A r δ base look a acc b) := by
  have hbl : b.length = δ.length := (JFP.under_length hb).trans (ha.1.trans hδ.symm)
  unfold JFP.termV
  by_cases h0 : Joint.abs b = 0
  · rw [if_pos h0, if_pos h0, hr.base, S.add]
  · rw [if_neg h0, if_neg h0, S.pow_ok u δ b hbl]
    by_cases h1 : Joint.eq b a
    · rw [if_pos h1, if_pos h1]
      have : b = a := by simpa [Joint.eq] using h1
      subst this
      rw [hr.full, hr.op]
    · rw [if_neg h1, if_neg h1, hl, hr.part, deg_sub u hb fun k hk => (ha.2 k hk).2, hr.op]

/-- A loop over a changed state. -/
theorem forEach_sim {α σ τ : Type} {M : σ → τ} {body : α → σ → Go (σ × List Err)} {body' : α → τ → Go (τ × List Err)} {l : List α}
    (h : ∀ a ∈ l, ∀ s, ∃ s', body a s = .val (s', []) ∧ body' a (M s) = .val (M s', [])) (s : σ) :
    ∃ s', forEach body l s = .val (s', []) ∧ forEach body' l (M s) = .val (M s', []) := by
  induction l generalizing s with
  | nil => exact ⟨s, rfl, rfl⟩
  | cons a l ih =>
    obtain ⟨s1, e1, e1'⟩ := h a List.mem_cons_self s
    obtain ⟨s2, e2, e2'⟩ := ih (fun a ha => h a (List.mem_cons_of_mem _ ha)) s1
    exact ⟨s2, by simp [forEach, e1, e2], by simp [forEach, e1', e2']⟩

theorem updateTuple (H : KeyDeg u dg n ts) {r : Rule F} (hr : S.RuleOK r) {δ : List F} (hδ : δ.length = n) (sums : Map F) (rev : Bool) {t : Tuple}
    (ht : t ∈ ts) (ns : Map F) : ∃ ns', JFP.updateTuple A r rev δ sums t ns = .val (ns', []) ∧
      JFP.updateTuple A r rev (S.pt u δ) (S.mp dg sums) t (S.mp dg ns) = .val (S.mp dg ns', []) := by
  unfold JFP.updateTuple
  rw [iter_eq, iter_eq]
  refine forEach_sim (M := S.mp dg) (fun a ha ns => ?_) ns
  have hat := mem_visited.1 ha
  have hak := (H t ht).1.under hat
  have hda := (H t ht).2 a hat
  have hz : Map.set (S.mp dg ns) (Joint.hash a) (A.ofInt 0) = S.mp dg (Map.set ns (Joint.hash a) (A.ofInt 0)) := by
    rw [← S.set_mp, S.zero]
  rw [hz, iter_eq, iter_eq]
  refine forEach_sim (M := S.mp dg) (fun b hb ns => ?_) _
  have hba := mem_visited.1 hb
  refine ⟨_, JFP.visit_val A r hba hak hδ sums ns, ?_⟩
  rw [JFP.visit_val A r hba hak (by rw [S.pt_length]; exact hδ), ← S.set_mp, S.get_mp, S.get_mp, hda]
  have hs := (JFP.subV_under hba fun k hk => (hak.2 k hk).2).1
  rw [S.term hr δ hδ hak hba]
  have hds := (H t ht).2 _ (JFP.under_trans hs hat)
  cases hf : r.fresh with
  | true => simp only [if_true]; rw [S.get_mp, hds]
  | false => simp only [Bool.false_eq_true, if_false]; rw [S.get_mp, hds]

theorem updateAll (H : KeyDeg u dg n ts) {r : Rule F} (hr : S.RuleOK r) {δ : List F} (hδ : δ.length = n) (sums : Map F) {l : List Tuple}
    (hl : ∀ t ∈ l, t ∈ ts) (ns : Map F) : ∃ ns', JFP.updateAll A r δ sums l ns = .val (ns', none) ∧
      JFP.updateAll A r (S.pt u δ) (S.mp dg sums) l (S.mp dg ns) = .val (S.mp dg ns', none) := by
  induction l generalizing ns with
  | nil => exact ⟨ns, rfl, rfl⟩
  | cons t l ih =>
    obtain ⟨n1, e1, e1'⟩ := S.updateTuple H hr hδ sums true (hl t List.mem_cons_self) ns
    obtain ⟨n2, e2, e2'⟩ := ih (fun t ht => hl t (List.mem_cons_of_mem _ ht)) n1
    exact ⟨n2, by simp only [JFP.updateAll, e1, e2], by simp only [JFP.updateAll, e1', e2']⟩

theorem removeAll (H : KeyDeg u dg n ts) {r : Rule F} (hr : S.RuleOK r) {δ : List F} (hδ : δ.length = n) {l : List Tuple}
    (hl : ∀ t ∈ l, t ∈ ts) (sums ns : Map F) : ∃ sums' ns', JFP.removeAll A r δ l sums ns = .val (sums', ns', none) ∧
      JFP.removeAll A r (S.pt u δ) l (S.mp dg sums) (S.mp dg ns) = .val (S.mp dg sums', S.mp dg ns', none) := by
  induction l generalizing sums ns with
  | nil => exact ⟨sums, ns, rfl, rfl⟩
  | cons t l ih =>
    obtain ⟨n1, e1, e1'⟩ := S.updateTuple H hr hδ sums false (hl t List.mem_cons_self) ns
    obtain ⟨s2, n2, e2, e2'⟩ := ih (fun t ht => hl t (List.mem_cons_of_mem _ ht)) (Map.copy sums n1) n1
    exact ⟨s2, n2, by simp only [JFP.removeAll, e1, e2], by simp only [JFP.removeAll, e1', S.copy_mp, e2']⟩

theorem pt_zip {f : F → F → F} (hf : ∀ g x y, f (S.act g x) (S.act g y) = S.act g (f x y)) (u : List G) (x y : List F) :
    List.zipWith f (S.pt u x) (S.pt u y) = S.pt u (List.zipWith f x y) := by
  induction u generalizing x y with
  | nil => simp only [S.pt_nil]
  | cons g u ih =>
    cases x with
    | nil => simp [pt, onVars]
    | cons a x =>
      cases y with
      | nil => simp [pt, onVars]
      | cons b y => simp only [pt, onVars, List.zipWith_cons_cons, hf, ih]

theorem pt_zero (u : List G) (x : List F) : S.pt u (x.map fun _ => A.ofInt 0) = x.map fun _ => A.ofInt 0 := by
  induction u generalizing x with
  | nil => rw [S.pt_nil]
  | cons g u ih =>
    cases x with
    | nil => rfl
    | cons y x => simp only [List.map_cons, pt, onVars, S.zero, ih]

/-- A core after a change of units. -/
def core (u : List G) (dg : Int → G) (c : Joint.Core F) : Joint.Core F :=
  { c with means := S.pt u c.means, sums := S.mp dg c.sums, newSums := S.mp dg c.newSums,
           queue := { c.queue with items := c.queue.items.map (S.pt u) } }

/-- What holds of every core on the way. -/
def Inv (n : Nat) (ts : List Tuple) (c : Joint.Core F) : Prop :=
  c.tuples = ts ∧ c.means.length = n ∧ ∀ x ∈ c.queue.items, x.length = n

/-- Two outcomes agree up to the change of units, and the first one is sound. -/
def Sim (u : List G) (dg : Int → G) (n : Nat) (ts : List Tuple) {β : Type} (x y : Go (Joint.Core F × β)) : Prop :=
  match x with
  | .panic => y = .panic
  | .hang => y = .hang
  | .val (c, e) => y = .val (S.core u dg c, e) ∧ Inv n ts c

theorem finish (H : KeyDeg u dg n ts) {r : Rule F} (hr : S.RuleOK r) {δ : List F} (hδ : δ.length = n) {c : Joint.Core F} (hc : Inv n ts c) :
    S.Sim u dg n ts (JFP.finish A r δ c) (JFP.finish A r (S.pt u δ) (S.core u dg c)) := by
  obtain ⟨ns, e, e'⟩ := S.updateAll H hr hδ c.sums (l := c.tuples) (fun t ht => hc.1 ▸ ht) c.newSums
  simp only [JFP.finish, e]
  refine ⟨?_, hc⟩
  simp only [core]
  rw [e']
  simp only [S.copy_mp]

theorem pushAdd (H : KeyDeg u dg n ts) {c : Joint.Core F} (hc : Inv n ts c) {x : List F} (hx : x.length = n) :
    S.Sim u dg n ts (JFP.pushAdd A c x) (JFP.pushAdd A (S.core u dg c) (S.pt u x)) := by
  have hm := hc.2.1
  have hδ : (List.zipWith (fun x m => A.sub x m) x c.means).length = n := by simp [hx, hm]
  unfold JFP.pushAdd
  have hd : (S.core u dg c).decay = c.decay := rfl
  rw [hd]
  cases c.decay with
  | none =>
    simp only [JFP.add]
    have hk : (S.core u dg c).count = c.count := rfl
    have hmm : (S.core u dg c).means = S.pt u c.means := rfl
    rw [hk, hmm, S.pt_zip S.sub]
    have := S.finish H (S.ruleOK_add (A.ofInt (c.count + 1))) hδ (c := { c with
      count := c.count + 1, means := List.zipWith (fun m d => A.add m (A.div d (A.ofInt (c.count + 1)))) c.means (List.zipWith (fun x m => A.sub x m) x c.means) })
      ⟨hc.1, by simp [hm, hx], hc.2.2⟩
    simp only [core] at this ⊢
    rwa [← S.pt_zip (f := fun m d => A.add m (A.div d (A.ofInt (c.count + 1)))) (fun g x y => by rw [S.div, S.add])] at this
  | some dd =>
    simp only [JFP.addDecay]
    have hk : (S.core u dg c).count = c.count := rfl
    have hmm : (S.core u dg c).means = S.pt u c.means := rfl
    rw [hk, hmm, S.pt_zip S.sub]
    generalize (if c.count + 1 = 1 then A.ofInt 1 else dd) = d
    have := S.finish H (S.ruleOK_decay d) hδ (c := { c with
      count := c.count + 1, means := List.zipWith (fun m e => A.add m (A.mul d e)) c.means (List.zipWith (fun x m => A.sub x m) x c.means) })
      ⟨hc.1, by simp [hm, hx], hc.2.2⟩
    simp only [core] at this ⊢
    rwa [← S.pt_zip (f := fun m e => A.add m (A.mul d e)) (fun g x y => by rw [S.mul_l, S.add])] at this

theorem remove (H : KeyDeg u dg n ts) {c : Joint.Core F} (hc : Inv n ts c) {x : List F} (hx : x.length = n) :
    S.Sim u dg n ts (JFP.remove A c x) (JFP.remove A (S.core u dg c) (S.pt u x)) := by
  have hm := hc.2.1
  unfold JFP.remove
  have hk : (S.core u dg c).count = c.count := rfl
  have hmm : (S.core u dg c).means = S.pt u c.means := rfl
  simp only [hk, hmm]
  by_cases h : c.count - 1 > 0
  · rw [if_pos h, if_pos h]
    rw [S.pt_zip (f := fun x m => A.sub m (A.div (A.sub x m) (A.ofInt (c.count - 1)))) (fun g x y => by rw [S.sub, S.div, S.sub]), S.pt_zip S.sub]
    have hδ : (List.zipWith (fun x m => A.sub x m) x (List.zipWith (fun x m => A.sub m (A.div (A.sub x m) (A.ofInt (c.count - 1)))) x c.means)).length
      = n := by simp [hx, hm]
    obtain ⟨s', ns', e, e'⟩ := S.removeAll H (S.ruleOK_remove (A.ofInt (c.count - 1))) hδ (l := c.tuples) (fun t ht => hc.1 ▸ ht) c.sums c.newSums
    rw [e]
    refine ⟨?_, hc.1, by simp [hm, hx], hc.2.2⟩
    simp only [core]
    rw [e']
  · rw [if_neg h, if_neg h]
    refine ⟨?_, hc.1, by simp [hm], hc.2.2⟩
    simp only [core, S.zero_mp]
    rw [S.pt_zero, List.map_const', List.map_const', S.pt_length]

theorem ring_get {α : Type} (f : α → α) (r : Ring α) : ({ r with items := r.items.map f } : Ring α).get = (match r.get with
    | .panic => .panic
    | .hang => .hang
    | .val (.error e) => .val (.error e)
    | .val (.ok (x, q)) => .val (.ok (f x, { q with items := q.items.map f }))) := by
  obtain ⟨cap, items, disposed⟩ := r
  cases disposed with
  | true => rfl
  | false =>
    cases items with
    | nil => by_cases h : cap = 0 <;> simp [Ring.get, h]
    | cons y ys => rfl

theorem ring_mem {α : Type} {r q : Ring α} {y : α} (h : r.get = .val (.ok (y, q))) : y ∈ r.items ∧ ∀ z ∈ q.items, z ∈ r.items := by
  obtain ⟨cap, items, disposed⟩ := r
  cases disposed with
  | true => cases h
  | false =>
    cases items with
    | nil => by_cases h0 : cap = 0 <;> simp [Ring.get, h0] at h
    | cons x xs =>
      cases h
      exact ⟨List.mem_cons_self, fun z hz => List.mem_cons_of_mem _ hz⟩

theorem ring_put {α : Type} (f : α → α) (r : Ring α) (x : α) : ({ r with items := r.items.map f } : Ring α).put (f x) = (match r.put x with
    | .panic => .panic
    | .hang => .hang
    | .val (.error e) => .val (.error e)
    | .val (.ok q) => .val (.ok { q with items := q.items.map f })) := by
  obtain ⟨cap, items, disposed⟩ := r
  cases disposed with
  | true => rfl
  | false =>
    by_cases h : cap = 0
    · simp [Ring.put, h]
    · by_cases hl : items.length < cap <;> simp [Ring.put, h, hl]

theorem ring_put_mem {α : Type} {r q : Ring α} {x : α} (h : r.put x = .val (.ok q)) : ∀ z ∈ q.items, z ∈ r.items ∨ z = x := by
  unfold Ring.put at h
  by_cases h1 : r.disposed = true
  · rw [if_pos h1] at h; cases h
  rw [if_neg h1] at h
  by_cases h2 : r.cap = 0
  · rw [if_pos h2] at h; cases h
  rw [if_neg h2] at h
  by_cases h3 : r.items.length < r.cap
  · rw [if_pos h3] at h
    cases h
    exact fun z hz => (List.mem_append.1 hz).imp_right List.mem_singleton.1
  · rw [if_neg h3] at h; cases h

theorem evict (H : KeyDeg u dg n ts) {c : Joint.Core F} (hc : Inv n ts c) :
    S.Sim u dg n ts (JFP.evict A c) (JFP.evict A (S.core u dg c)) := by
  unfold JFP.evict
  have hq : ((S.core u dg c).queue.len : Int) = c.queue.len := by simp [core, Ring.len]
  have hw : (S.core u dg c).window = c.window := rfl
  rw [hq, hw]
  by_cases h : (c.queue.len : Int) = c.window
  · rw [if_pos h, if_pos h]
    have hg := ring_get (S.pt u) c.queue
    rw [show (S.core u dg c).queue = { c.queue with items := c.queue.items.map (S.pt u) } from rfl, hg]
    cases hE : c.queue.get with
    | panic => rfl
    | hang => rfl
    | val r =>
      cases r with
      | error e => exact ⟨rfl, hc⟩
      | ok r =>
        obtain ⟨y, q⟩ := r
        obtain ⟨hy, hq'⟩ := ring_mem hE
        exact S.remove H (c := { c with queue := q }) ⟨hc.1, hc.2.1, fun z hz => hc.2.2 z (hq' z hz)⟩ (hc.2.2 y hy)
  · rw [if_neg h, if_neg h]
    exact ⟨rfl, hc⟩

theorem push (H : KeyDeg u dg n ts) {c : Joint.Core F} (hc : Inv n ts c) (x : List F) :
    S.Sim u dg n ts (JFP.push A c x) (JFP.push A (S.core u dg c) (S.pt u x)) := by
  unfold JFP.push
  have hw : (S.core u dg c).window = c.window := rfl
  have hmm : (S.core u dg c).means.length = c.means.length := S.pt_length u _
  rw [hw, hmm, S.pt_length]
  by_cases hx : x.length ≠ c.means.length
  · rw [if_pos hx, if_pos hx]
    exact ⟨rfl, hc⟩
  have hxn : x.length = n := (not_not.1 hx).trans hc.2.1
  rw [if_neg hx, if_neg hx]
  by_cases h0 : c.window ≠ 0
  · rw [if_pos h0, if_pos h0]
    have he := S.evict H hc
    cases hE : JFP.evict A c with
    | panic => rw [hE] at he; rw [show JFP.evict A (S.core u dg c) = .panic from he]; rfl
    | hang => rw [hE] at he; rw [show JFP.evict A (S.core u dg c) = .hang from he]; rfl
    | val p =>
      obtain ⟨c1, e⟩ := p
      rw [hE] at he
      obtain ⟨he, hc1⟩ := he
      rw [he]
      cases e with
      | some e => exact ⟨rfl, hc1⟩
      | none =>
        simp only [JFP.pushPut]
        have hg := ring_put (S.pt u) c1.queue x
        rw [show (S.core u dg c1).queue = { c1.queue with items := c1.queue.items.map (S.pt u) } from rfl, hg]
        cases hP : c1.queue.put x with
        | panic => rfl
        | hang => rfl
        | val r =>
          cases r with
          | error e => exact ⟨rfl, hc1⟩
          | ok q =>
            exact S.pushAdd H (c := { c1 with queue := q }) (x := x)
              ⟨hc1.1, hc1.2.1, fun z hz => (ring_put_mem hP z hz).elim (hc1.2.2 z) fun h => by rw [h]; exact hxn⟩ hxn
  · rw [if_neg h0, if_neg h0]
    exact S.pushAdd H hc hxn

theorem clear {c : Joint.Core F} (hc : Inv n ts c) :
    JFP.clear A (S.core u dg c) = S.core u dg (JFP.clear A c) ∧ Inv n ts (JFP.clear A c) := by
  refine ⟨?_, hc.1, by simp [JFP.clear, hc.2.1], by simp [JFP.clear, Ring.new]⟩
  simp only [JFP.clear, core, S.zero_mp, Ring.new, List.map_nil]
  rw [S.pt_zero, List.map_const', List.map_const', S.pt_length]

theorem run (H : KeyDeg u dg n ts) {c : Joint.Core F} (hc : Inv n ts c) (l : List (MOp (List F))) :
    S.Sim u dg n ts (JFP.run A c l) (JFP.run A (S.core u dg c) (mapPush (S.pt u) l)) := by
  unfold JFP.run
  suffices h : ∀ es, S.Sim u dg n ts (Go.runOps (logged (JFP.step A)) (c, es) l)
      (Go.runOps (logged (JFP.step A)) (S.core u dg c, es) (mapPush (S.pt u) l)) from h []
  induction l generalizing c with
  | nil => exact fun es => ⟨rfl, hc⟩
  | cons o l ih =>
    intro es
    simp only [mapPush, List.map_cons, Go.runOps]
    cases o with
    | clear =>
      simp only [logged, JFP.step, Go.val_bind]
      obtain ⟨e, hc'⟩ := S.clear (u := u) (dg := dg) hc
      rw [e]
      exact ih hc' _
    | push x =>
      simp only [logged, JFP.step]
      have hp := S.push H hc x
      cases hE : JFP.push A c x with
      | panic => rw [hE] at hp; rw [show JFP.push A (S.core u dg c) (S.pt u x) = .panic from hp]; rfl
      | hang => rw [hE] at hp; rw [show JFP.push A (S.core u dg c) (S.pt u x) = .hang from hp]; rfl
      | val p =>
        obtain ⟨c1, e⟩ := p
        rw [hE] at hp
        obtain ⟨hp, hc1⟩ := hp
        rw [hp]
        simp only [Go.val_bind]
        cases e <;> exact ih hc1 _

end Graded
end Verif.FP
