import Verif.Proofs.Joint

/-! # The joint core as a whole: `add`, `addDecay`, `remove`, `Push`, `Clear` -/

set_option linter.unusedSectionVars false
set_option linter.unusedSimpArgs false

namespace Verif.Joint
open Verif Verif.Spec Verif.MathUtil

variable {K : Type} [Field K]

/-! ## The data -/

/-- Data points with weight one. -/
def unit (data : List (List K)) : List (K × List K) := data.map (fun x => (1, x))

/-- The means of the `n` coordinates. -/
def jmeans (n : Nat) (data : List (List K)) : List K := (List.range n).map (fun j => Spec.mean (coord j data))

/-- The exponentially weighted means of the `n` coordinates. -/
def emeans (n : Nat) (d : K) (data : List (List K)) : List K := (List.range n).map (fun j => ewMean d (coord j data))

/-- What the core keeps for `a`: the entry of the zero tuple stays 0. -/
def stored (ps : List (K × List K)) (μ : List K) (a : List Nat) : K := if a.sum = 0 then 0 else wj ps μ a

@[simp] theorem jmeans_length (n : Nat) (data : List (List K)) : (jmeans n data).length = n := by simp [jmeans]
@[simp] theorem emeans_length (n : Nat) (d : K) (data : List (List K)) : (emeans n d data).length = n := by simp [emeans]

theorem coord_append (j : Nat) (xs ys : List (List K)) : coord j (xs ++ ys) = coord j xs ++ coord j ys := by simp [coord]
@[simp] theorem coord_length (j : Nat) (xs : List (List K)) : (coord j xs).length = xs.length := by simp [coord]
theorem coord_one (j : Nat) (x : List K) : coord j [x] = [x.getD j 0] := rfl

theorem jprod_eq (f : Nat → K) {x : List K} {m : List Nat} (h : x.length = m.length) :
    jprod f x m = mpow (List.zipWith (· - ·) x ((List.range m.length).map f)) m := by
  unfold jprod
  induction m generalizing x f with
  | nil => cases x <;> simp [mpow]
  | cons n ns ih =>
    cases x with
    | nil => simp at h
    | cons x xs =>
      have := ih (f := fun j => f (j + 1)) (x := xs) (by simpa using h)
      rw [List.length_cons, List.range_succ_eq_map]
      simp only [List.map_cons, List.map_map, List.prod_cons, List.zipWith_cons_cons, mpow, List.getD_cons_zero, Function.comp_def,
        Nat.succ_eq_add_one, List.getD_cons_succ]
      rw [this]

theorem wj_unit {n : Nat} {m : List Nat} (hm : m.length = n) {data : List (List K)} (h : ∀ x ∈ data, x.length = n) :
    wj (unit data) (jmeans n data) m = jsum m data := by
  unfold wj unit jsum jmeans
  rw [List.map_map]
  congr 1
  apply List.map_congr_left
  intro x hx
  simp only [Function.comp_apply, one_mul]
  rw [jprod_eq _ (by rw [h x hx, hm]), hm]

theorem wj_pairs {n : Nat} (d : K) {m : List Nat} (hm : m.length = n) {data : List (List K)} (h : ∀ x ∈ data, x.length = n) :
    wj (Moment.pairs d data) (emeans n d data) m = ewJoint d m data := by
  unfold wj ewJoint emeans
  rw [Moment.ewTotal_pairs]
  congr 1
  apply List.map_congr_left
  intro p hp
  have : p.2 ∈ data := by
    unfold Moment.pairs at hp
    obtain ⟨⟨y, i⟩, hy, rfl⟩ := List.mem_map.1 hp
    exact List.fst_mem_of_mem_zipIdx hy
  rw [jprod_eq _ (by rw [h _ this, hm]), hm]

theorem getD_get {x : List K} {j : Nat} (h : j < x.length) : x.getD j 0 = x[j] := by simp [List.getD, h]

theorem jmeans_snoc [CharZero K] {n : Nat} (data : List (List K)) {x : List K} (hx : x.length = n) :
    jmeans n (data ++ [x]) = List.zipWith (· + ·) (jmeans n data)
      ((List.zipWith (· - ·) x (jmeans n data)).map ((1 / ((data.length : K) + 1)) * ·)) := by
  apply List.ext_getElem
  · simp [hx]
  · intro j h1 h2
    have hj : j < n := by simpa using h1
    have hjx : j < x.length := by omega
    simp only [jmeans, List.getElem_map, List.getElem_range, List.getElem_zipWith, coord_append, coord_one]
    rw [Moment.mean_snoc, coord_length, getD_get hjx]
    ring

theorem emeans_snoc {n : Nat} (d : K) {data : List (List K)} (hd : data ≠ []) {x : List K} (hx : x.length = n) :
    emeans n d (data ++ [x]) = List.zipWith (· + ·) (emeans n d data) ((List.zipWith (· - ·) x (emeans n d data)).map (d * ·)) := by
  apply List.ext_getElem
  · simp [hx]
  · intro j h1 h2
    have hj : j < n := by simpa using h1
    have hjx : j < x.length := by omega
    simp only [emeans, List.getElem_map, List.getElem_range, List.getElem_zipWith, coord_append, coord_one]
    have hc : coord j data ≠ [] := by
      intro c
      have := congrArg List.length c
      rw [coord_length] at this
      exact hd (List.length_eq_zero_iff.1 this)
    rw [Moment.ewMean_snoc d hc, getD_get hjx]

theorem jmeans_perm {n : Nat} {xs ys : List (List K)} (h : xs.Perm ys) : jmeans n xs = jmeans n ys := by
  unfold jmeans coord
  exact List.map_congr_left (fun j _ => Moment.mean_perm (h.map _))

theorem wj_perm {ps qs : List (K × List K)} (h : ps.Perm qs) (μ : List K) (a : List Nat) : wj ps μ a = wj qs μ a :=
  (h.map _).sum_eq

theorem stored_perm {ps qs : List (K × List K)} (h : ps.Perm qs) (μ : List K) : stored ps μ = stored qs μ := by
  funext a
  unfold stored
  rw [wj_perm h]

/-! ## The state -/

/-- The core represents the weighted points `ps` with means `μ`. -/
structure Rep (n : Nat) (ts : List (List Nat)) (ps : List (K × List K)) (μ : List K) (c : Core K) : Prop where
  tuples : c.tuples = ts.map up
  means : c.means = μ
  len : μ.length = n
  pts : ∀ p ∈ ps, p.2.length = n
  val : ∀ a, Tracked ts a → c.sums (hash (up a)) = some (stored ps μ a)
  none : ∀ k, (∀ a, Tracked ts a → hash (up a) ≠ k) → c.sums k = none
  eqv : c.newSums = c.sums

theorem below_zero {a : List Nat} (h : a.sum = 0) : below a = [a] := by
  induction a with
  | nil => rfl
  | cons n ns ih =>
    simp only [List.sum_cons] at h
    have h1 : n = 0 := by omega
    subst h1
    rw [below, ih (by omega)]; rfl

theorem total_zero (r : Rule K) (δ : List K) (base : K) (look : List Nat → K) {a : List Nat} (h : a.sum = 0) :
    total r δ base look a = r.base base := by
  unfold total
  rw [below_zero h]
  simp [term, h]

/-- The new stored value. -/
theorem total_stored {r : Rule K} {s W τ w : K} (hr : Adds r s W τ w) {ps : List (K × List K)} (hW : (ps.map Prod.fst).sum = W ∨ s = 0)
    {μ x : List K} {a : List Nat} (hp : ∀ p ∈ ps, p.2.length = a.length) (hμ : μ.length = a.length) (hx : x.length = a.length) :
    total r (List.zipWith (· - ·) x μ) (stored ps μ a) (stored ps μ) a =
      stored (ps.map (fun p => (s * p.1, p.2)) ++ [(w, x)]) (List.zipWith (· + ·) μ ((List.zipWith (· - ·) x μ).map (τ * ·))) a := by
  have hr' : Adds r s (ps.map Prod.fst).sum τ w := by
    rcases hW with h | h
    · rw [h]; exact hr
    · exact ⟨hr.base, fun n dp hn => by rw [hr.full n dp hn, h]; ring, hr.part⟩
  by_cases h : a.sum = 0
  · rw [total_zero _ _ _ _ h, hr.base, stored, stored, if_pos h, if_pos h, mul_zero]
  · rw [total_congr (look' := wj ps μ), stored, stored, if_neg h, if_neg h, total_adds hr' rfl hp hμ hx h]
    intro c _ _ hc
    rw [stored, if_neg hc]

/-- The update loops of `add` and `addDecay` in a representing state. -/
theorem updateAll_rep {n : Nat} {ts : List (List Nat)} (hg : Good n ts) {r : Rule K} (hf : r.fresh = false) {s W τ w : K} (hr : Adds r s W τ w)
    {ps : List (K × List K)} (hW : (ps.map Prod.fst).sum = W ∨ s = 0) {μ : List K} {c : Core K} (h : Rep n ts ps μ c) {x : List K} (hx : x.length = n) :
    ∃ ns', updateAll r (List.zipWith (fun x m => x - m) x c.means) c.sums c.tuples c.newSums = .val (ns', Option.none) ∧
      ∀ c' : Core K, c'.tuples = c.tuples → c'.sums = Map.copy c.sums ns' → c'.newSums = ns' →
        c'.means = List.zipWith (· + ·) μ ((List.zipWith (· - ·) x μ).map (τ * ·)) →
        Rep n ts (ps.map (fun p => (s * p.1, p.2)) ++ [(w, x)]) (List.zipWith (· + ·) μ ((List.zipWith (· - ·) x μ).map (τ * ·))) c' := by
  obtain ⟨ns', e, h1, h2⟩ := updateAll_val r hf hg (δ := List.zipWith (fun x m => x - m) x c.means) (by simp [hx, h.means, h.len]) c.sums c.newSums
  rw [← h.tuples] at e
  have hcopy : Map.copy c.sums ns' = ns' := by
    apply copy_self
    intro k hk
    by_cases hex : ∃ a, Tracked ts a ∧ hash (up a) = k
    · obtain ⟨a, ha, rfl⟩ := hex
      rw [h1 a ha] at hk; cases hk
    · exact h.none k (fun a ha he => hex ⟨a, ha, he⟩)
  refine ⟨ns', e, fun c' t1 t2 t3 t4 => ⟨by rw [t1, h.tuples], t4, by simp [hx, h.len], ?_, ?_, ?_, by rw [t2, t3, hcopy]⟩⟩
  · intro p hp
    rcases List.mem_append.1 hp with hp | hp
    · obtain ⟨q, hq, rfl⟩ := List.mem_map.1 hp
      exact h.pts q hq
    · rw [List.mem_singleton] at hp
      subst hp; exact hx
  · intro a ha
    have hl := hg.length ha
    rw [t2, hcopy, h1 a ha, h.means]
    have hbase : Map.get c.sums (hash (up a)) = stored ps μ a := by rw [Map.get, h.val a ha]; rfl
    rw [hbase, total_congr (look' := stored ps μ)]
    · rw [total_stored hr hW (by rw [hl]; exact h.pts) (by rw [hl, h.len]) (by rw [hl, hx])]
    · intro b hb _ _
      rw [Map.get, h.val b (ha.below hb)]; rfl
  · intro k hk
    rw [t2, hcopy, h2 k hk, h.eqv, h.none k hk]

theorem add_rep [CharZero K] {n : Nat} {ts : List (List Nat)} (hg : Good n ts) {data : List (List K)} {c : Core K}
    (h : Rep n ts (unit data) (jmeans n data) c) (hc : c.count = data.length) {x : List K} (hx : x.length = n) :
    ∃ c', add c x = .val (c', none) ∧ Rep n ts (unit (data ++ [x])) (jmeans n (data ++ [x])) c' ∧ c'.count = ((data ++ [x]).length : Int) ∧
      c'.window = c.window ∧ c'.decay = c.decay ∧ c'.queue = c.queue := by
  have hN : (data.length : K) + 1 ≠ 0 := by exact_mod_cast Nat.succ_ne_zero data.length
  have hcnt : (((c.count + 1 : Int)) : K) = (data.length : K) + 1 := by rw [hc]; push_cast; rfl
  have hW : ((unit data).map Prod.fst).sum = ((data.length : K) + 1) - 1 := by simp [unit, Function.comp_def]
  obtain ⟨ns', e, hrep⟩ := updateAll_rep hg (by rfl) (addRule_adds hN) (Or.inl hW) h hx
  unfold add
  simp only
  rw [hcnt, e]
  refine ⟨_, rfl, ?_, by simp [hc], rfl, rfl, rfl⟩
  have := hrep ⟨List.zipWith (fun m d => m + d / ((data.length : K) + 1)) c.means
      (List.zipWith (fun x m => x - m) x c.means), c.tuples, Map.copy c.sums ns', ns', c.count + 1, c.window, c.decay, c.queue⟩ rfl rfl rfl
    (by
      simp only [h.means]
      rw [List.zipWith_map_right]
      congr 1
      funext m d
      rw [div_eq_mul_one_div, mul_comm])
  rw [← jmeans_snoc data hx] at this
  have hu : List.map (fun p : K × List K => (1 * p.1, p.2)) (unit data) ++ [(1, x)] = unit (data ++ [x]) := by
    simp [unit, Function.comp_def]
  rw [hu] at this
  exact this

theorem remove_rep [CharZero K] {n : Nat} {ts : List (List Nat)} (hg : Good n ts) {y : List K} {ys : List (List K)} {c : Core K}
    (hov : ys ≠ [] → NoOverlap ts) (h : Rep n ts (unit (y :: ys)) (jmeans n (y :: ys)) c) (hc : c.count = ((y :: ys).length : Int)) :
    ∃ c', remove c y = .val (c', none) ∧ Rep n ts (unit ys) (jmeans n ys) c' ∧ c'.count = (ys.length : Int) ∧
      c'.window = c.window ∧ c'.decay = c.decay ∧ c'.queue = c.queue := by
  have hc1 : c.count - 1 = (ys.length : Int) := by rw [hc]; simp
  have hy : y.length = n := h.pts (1, y) (by simp [unit])
  have hys : ∀ p ∈ unit ys, p.2.length = n := fun p hp => h.pts p (by simp only [unit, List.map_cons]; exact List.mem_cons_of_mem _ hp)
  have hperm : (y :: ys).Perm (ys ++ [y]) := (List.perm_append_singleton y ys).symm
  unfold remove
  simp only
  rw [hc1]
  by_cases h0 : ys = []
  · subst h0
    rw [if_neg (by simp)]
    refine ⟨_, rfl, ⟨h.tuples, ?_, by simp, by simp [unit], ?_, ?_, ?_⟩, rfl, rfl, rfl, rfl⟩
    · show c.means.map (fun _ => (0 : K)) = _
      rw [h.means]
      simp [jmeans, Spec.mean, coord, Function.comp_def]
    · intro a ha
      show Map.zero c.sums _ = _
      rw [Map.zero, h.val a ha]
      simp [stored, wj, unit]
    · intro k hk
      show Map.zero c.sums _ = _
      rw [Map.zero, h.none k hk]; rfl
    · show Map.zero c.newSums = Map.zero c.sums
      rw [h.eqv]
  · have hpos := List.length_pos_iff.2 h0
    have hn0 : (ys.length : K) ≠ 0 := by exact_mod_cast hpos.ne'
    have hN : (ys.length : K) + 1 ≠ 0 := by exact_mod_cast Nat.succ_ne_zero ys.length
    rw [if_pos (by omega)]
    have hμ : List.zipWith (fun x m => m - (x - m) / ((ys.length : Int) : K)) y c.means = jmeans n ys := by
      rw [h.means, jmeans_perm hperm]
      apply List.ext_getElem
      · simp [hy]
      · intro j h1 h2
        have hj : j < n := by simpa using h2
        have hjx : j < y.length := by omega
        simp only [jmeans, List.getElem_map, List.getElem_range, List.getElem_zipWith, coord_append, coord_one]
        rw [Moment.mean_snoc, coord_length, getD_get hjx]
        push_cast
        field_simp
        ring
    rw [hμ]
    have hr := addRule_adds hN
    have hadd : ∀ a, Tracked ts a → total (addRule ((ys.length : K) + 1)) (List.zipWith (· - ·) y (jmeans n ys))
        (stored (unit ys) (jmeans n ys) a) (stored (unit ys) (jmeans n ys)) a = stored (unit (y :: ys)) (jmeans n (y :: ys)) a := by
      intro a ha
      have hl := hg.length ha
      rw [total_stored hr (Or.inl (by simp [unit, Function.comp_def])) (by rw [hl]; exact hys) (by simp [hl]) (by rw [hl, hy]),
        ← jmeans_snoc ys hy, jmeans_perm hperm]
      have hu : List.map (fun p : K × List K => (1 * p.1, p.2)) (unit ys) ++ [(1, y)] = unit (ys ++ [y]) := by
        simp [unit, Function.comp_def]
      rw [hu, stored_perm (show (unit (ys ++ [y])).Perm (unit (y :: ys)) from (hperm.symm.map _))]
    obtain ⟨m, e, a1, b1⟩ := removeAll_val (removeRule ((ys.length : Int) : K)) rfl hg
      (δ := List.zipWith (fun x m => x - m) y (jmeans n ys)) (by simp [hy]) (hov h0)
      (S := stored (unit (y :: ys)) (jmeans n (y :: ys))) (S' := stored (unit ys) (jmeans n ys))
      (by
        intro a ha
        refine total_remove (r := addRule ((ys.length : K) + 1)) (fun _ => rfl) (fun _ => rfl) ?_ ?_ (hadd a ha)
        · intro k dp _
          simp [removeRule, addRule]
        · intro _ _ _ _
          simp [removeRule, addRule])
      (by
        intro a ha h1
        by_cases hz : a.sum = 0
        · simp [stored, hz]
        · rw [← hadd a ha]
          unfold total
          conv_rhs => rw [← sum_ite_mem (nodup_below a) (mem_below.2 (zeros_below a)) (stored (unit ys) (jmeans n ys) a)]
          congr 1
          apply List.map_congr_left
          intro b hb
          rw [mem_below] at hb
          unfold term
          by_cases hb0 : b.sum = 0
          · rw [if_pos hb0, if_pos (hb.eq_zeros hb0)]; rfl
          · have hba : b = a := hb.eq_of_sum (by omega)
            subst hba
            have hb1 : b.sum = 1 := by omega
            rw [if_neg hb0, if_pos rfl, if_neg (by intro c; rw [c, sum_zeros] at hb0; exact hb0 rfl), hb1]
            have hs1 : sign 1 = -1 := rfl
            simp [addRule, hs1])
      h.val
    rw [← h.tuples] at e
    rw [h.eqv, e]
    refine ⟨_, rfl, ⟨h.tuples, rfl, by simp, hys, a1, fun k hk => (b1 k hk).trans (h.none k hk), rfl⟩, rfl, rfl, rfl, rfl⟩

/-! ## Windowed and global cores -/

/-- The state of a core without decay after the accepted points `xs`. -/
structure W (n : Nat) (ts : List (List Nat)) (w : Nat) (xs : List (List K)) (c : Core K) : Prop where
  win : c.window = w
  dec : c.decay = none
  cap : c.queue.cap = Ring.roundUp w
  live : c.queue.disposed = false
  q : w ≠ 0 → c.queue.items = lastN w xs
  count : c.count = ((lastN w xs).length : Int)
  rep : Rep n ts (unit (lastN w xs)) (jmeans n (lastN w xs)) c

theorem pushAdd_none {c : Core K} {x : List K} (hd : c.decay = none) : pushAdd c x = add c x := by
  unfold pushAdd; rw [hd]

theorem evict_full {c : Core K} {y : List K} {q : Ring (List K)} {r : Go (Core K × Option Err)} (hl : (c.queue.len : Int) = c.window)
    (hq : c.queue.get = .val (.ok (y, q))) (hr : remove { c with queue := q } y = r) : evict c = r := by
  unfold evict
  rw [if_pos hl, hq]
  exact hr

theorem pushPut_ok {c : Core K} {x : List K} {q : Ring (List K)} {r : Go (Core K × Option Err)} (hq : c.queue.put x = .val (.ok q))
    (hr : pushAdd { c with queue := q } x = r) : pushPut c x = r := by
  unfold pushPut
  rw [hq]
  exact hr

theorem push_of_evict {c c1 : Core K} {x : List K} {r : Go (Core K × Option Err)} (hlen : x.length = c.means.length) (hw : c.window ≠ 0)
    (he : evict c = .val (c1, none)) (hr : pushPut c1 x = r) : push c x = r := by
  unfold push
  rw [if_neg (by simp [hlen]), if_pos hw, he]
  exact hr

theorem push_W [CharZero K] {n : Nat} {ts : List (List Nat)} (hg : Good n ts) {w : Nat} (hov : 2 ≤ w → NoOverlap ts) {xs : List (List K)}
    {c : Core K} (h : W n ts w xs c) {x : List K} (hx : x.length = n) :
    ∃ c', push c x = .val (c', none) ∧ W n ts w (xs ++ [x]) c' := by
  have hlen : x.length = c.means.length := by rw [hx, h.rep.means, h.rep.len]
  by_cases hw : w = 0
  · subst hw
    have hr := h.rep
    have hc := h.count
    rw [lastN_zero] at hr hc
    obtain ⟨c', e, hr', a1, a2, a3, a4⟩ := add_rep hg hr hc hx
    refine ⟨c', ?_, ⟨by rw [a2, h.win], by rw [a3, h.dec], by rw [a4, h.cap], by rw [a4, h.live], fun c => absurd rfl c,
      by rw [lastN_zero]; exact a1, by rw [lastN_zero]; exact hr'⟩⟩
    unfold push
    rw [if_neg (by simp [hlen]), if_neg (by rw [h.win]; simp), pushAdd_none h.dec, e]
  · have hw' : c.window ≠ 0 := by rw [h.win]; exact_mod_cast hw
    have hq := h.q hw
    have key : ∃ c1 ys, evict c = .val (c1, none) ∧ c1.window = w ∧ c1.decay = none ∧ c1.queue.cap = Ring.roundUp w ∧
        c1.queue.disposed = false ∧ c1.queue.items = ys ∧ c1.count = (ys.length : Int) ∧ Rep n ts (unit ys) (jmeans n ys) c1 ∧
        lastN w (xs ++ [x]) = ys ++ [x] ∧ ys.length < w := by
      by_cases hfull : (lastN w xs).length = w
      · obtain ⟨y, ys, hyys⟩ : ∃ y ys, lastN w xs = y :: ys := by
          cases hl : lastN w xs with
          | nil => rw [hl] at hfull; exact absurd hfull.symm hw
          | cons y ys => exact ⟨y, ys, rfl⟩
        have hr := h.rep
        have hc := h.count
        rw [hyys] at hr hc hq
        have hr' : Rep n ts (unit (y :: ys)) (jmeans n (y :: ys)) { c with queue := { c.queue with items := ys } } :=
          ⟨hr.tuples, hr.means, hr.len, hr.pts, hr.val, hr.none, hr.eqv⟩
        obtain ⟨c1, e, hr1, a1, a2, a3, a4⟩ := remove_rep hg (fun hne => hov (by
          have := List.length_pos_iff.2 hne
          rw [hyys] at hfull; simp at hfull; omega)) hr' hc
        refine ⟨c1, ys, evict_full ?_ (Ring.get_ok h.live hq) e, by rw [a2]; exact h.win, by rw [a3]; exact h.dec, by rw [a4]; exact h.cap,
          by rw [a4]; exact h.live, by rw [a4], a1, hr1, ?_, ?_⟩
        · rw [Ring.len, h.q hw, h.win, hfull]
        · rw [lastN_snoc_full hw _ _ hfull, hyys]; rfl
        · rw [hyys] at hfull; simp at hfull; omega
      · have hle := lastN_length_le hw xs
        refine ⟨c, lastN w xs, ?_, h.win, h.dec, h.cap, h.live, hq, h.count, h.rep, lastN_snoc_room hw _ _ hfull, by omega⟩
        unfold evict
        rw [if_neg]
        rw [Ring.len, hq, h.win]; exact_mod_cast hfull
    obtain ⟨c1, ys, e1, b1, b2, b3, b4, b5, b6, b7, b8, b9⟩ := key
    have hput : c1.queue.put x = .val (.ok { c1.queue with items := c1.queue.items ++ [x] }) :=
      Ring.put_ok b4 (by rw [b5, b3]; exact lt_of_lt_of_le b9 (Ring.le_roundUp w)) x
    have hr2 : Rep n ts (unit ys) (jmeans n ys) { c1 with queue := { c1.queue with items := c1.queue.items ++ [x] } } :=
      ⟨b7.tuples, b7.means, b7.len, b7.pts, b7.val, b7.none, b7.eqv⟩
    obtain ⟨c2, e2, hr3, a1, a2, a3, a4⟩ := add_rep hg hr2 b6 hx
    refine ⟨c2, push_of_evict hlen hw' e1 (pushPut_ok hput ((pushAdd_none (by exact b2)).trans e2)), ⟨by rw [a2]; exact b1, by rw [a3]; exact b2,
      by rw [a4]; exact b3, by rw [a4]; exact b4, fun _ => ?_, by rw [b8]; exact a1, by rw [b8]; exact hr3⟩⟩
    rw [a4, b8]
    show c1.queue.items ++ [x] = _
    rw [b5]

theorem clear_rep {n : Nat} {ts : List (List Nat)} {ps : List (K × List K)} {μ : List K} {c : Core K} (h : Rep n ts ps μ c) :
    Rep n ts [] (List.replicate n 0) (clear c) := by
  refine ⟨h.tuples, ?_, by simp, by simp, ?_, ?_, ?_⟩
  · show c.means.map (fun _ => (0 : K)) = _
    rw [h.means]
    simp [h.len]
  · intro a ha
    show Map.zero c.sums _ = _
    rw [Map.zero, h.val a ha]
    simp [stored, wj]
  · intro k hk
    show Map.zero c.sums _ = _
    rw [Map.zero, h.none k hk]; rfl
  · show Map.zero c.newSums = Map.zero c.sums
    rw [h.eqv]

theorem jmeans_nil (n : Nat) : jmeans n ([] : List (List K)) = List.replicate n 0 := by
  simp [jmeans, Spec.mean, coord]

theorem emeans_nil (n : Nat) (d : K) : emeans n d ([] : List (List K)) = List.replicate n 0 := by
  simp [emeans, ewMean, ewTotal, coord]

theorem clear_W {n : Nat} {ts : List (List Nat)} {w : Nat} {xs : List (List K)} {c : Core K} (h : W n ts w xs c) :
    W n ts w ([] : List (List K)) (clear c) :=
  ⟨h.win, h.dec, by simp [clear, Ring.new, h.win], rfl, fun _ => by simp [clear, Ring.new], by simp [clear],
    by rw [lastN_nil, jmeans_nil]; exact clear_rep h.rep⟩

theorem push_arity {c : Core K} {x : List K} (h : x.length ≠ c.means.length) :
    push c x = .val (c, some "tried to push a wrong number of values") := by
  unfold push
  rw [if_pos h]

/-- Every history of a core without decay; the errors are those of the pushes of a wrong arity. -/
theorem run_W [CharZero K] {n : Nat} {ts : List (List Nat)} (hg : Good n ts) {w : Nat} (hov : 2 ≤ w → NoOverlap ts) {c : Core K}
    (h : W n ts w ([] : List (List K)) c) (ops : List (MOp (List K))) :
    ∃ c', run c ops = .val (c', List.replicate (ops.countP (fun o => !okArity n o)) "tried to push a wrong number of values") ∧
      W n ts w (since (ops.filter (okArity n))) c' := by
  induction ops using List.reverseRecOn with
  | nil => exact ⟨c, rfl, h⟩
  | append_singleton ops op ih =>
    obtain ⟨c', e, hW⟩ := ih
    unfold run at e ⊢
    rw [Go.runOps_append, e, List.filter_append, List.countP_append]
    cases op with
    | push x =>
      by_cases hx : x.length = n
      · obtain ⟨c'', e', hW'⟩ := push_W hg hov hW hx
        refine ⟨c'', by simp [Go.runOps, logged, step, e', okArity, hx], ?_⟩
        have : List.filter (okArity n) [MOp.push x] = [MOp.push x] := by simp [okArity, hx]
        rw [this, since_push]; exact hW'
      · have hne : x.length ≠ c'.means.length := by rw [hW.rep.means, hW.rep.len]; exact hx
        refine ⟨c', ?_, ?_⟩
        · simp only [Go.runOps, logged, step, push_arity hne, Go.val_bind, Go.pure_eq]
          simp [okArity, hx, List.replicate_succ']
        · have : List.filter (okArity n) [MOp.push x] = [] := by simp [okArity, hx]
          rw [this, List.append_nil]; exact hW
    | clear =>
      refine ⟨clear c', by simp [Go.runOps, logged, step, okArity], ?_⟩
      have : List.filter (okArity n) [(MOp.clear : MOp (List K))] = [MOp.clear] := by simp [okArity]
      rw [this, since_clear]; exact clear_W hW

/-! ## Decay -/

/-- The state of a core with decay `d` after the accepted points `xs`. -/
structure D (n : Nat) (ts : List (List Nat)) (d : K) (xs : List (List K)) (c : Core K) : Prop where
  win : c.window = 0
  dec : c.decay = some d
  count : c.count = (xs.length : Int)
  pts : ∀ x ∈ xs, x.length = n
  rep : Rep n ts (Moment.pairs d xs) (emeans n d xs) c

theorem pairs_sum (d : K) {xs : List (List K)} (h : xs ≠ []) : ((Moment.pairs d xs).map Prod.fst).sum = 1 := by
  induction xs using List.reverseRecOn with
  | nil => exact absurd rfl h
  | append_singleton xs x ih =>
    by_cases hx : xs = []
    · subst hx; rw [List.nil_append, Moment.pairs_one]; simp
    · rw [Moment.pairs_snoc d hx, List.map_append, List.sum_append, List.map_map]
      have : (Prod.fst ∘ fun p : K × List K => ((1 - d) * p.1, p.2)) = fun p => (1 - d) * p.1 := rfl
      rw [this, List.sum_map_mul_left]
      have h2 : (List.map (fun p : K × List K => p.1) (Moment.pairs d xs)).sum = 1 := ih hx
      rw [h2]; simp

theorem push_D {n : Nat} {ts : List (List Nat)} (hg : Good n ts) {d : K} {xs : List (List K)} {c : Core K} (h : D n ts d xs c) {x : List K}
    (hx : x.length = n) : ∃ c', push c x = .val (c', none) ∧ D n ts d (xs ++ [x]) c' := by
  have hlen : x.length = c.means.length := by rw [hx, h.rep.means, h.rep.len]
  have hpts : ∀ y ∈ xs ++ [x], y.length = n := by
    intro y hy
    rcases List.mem_append.1 hy with hy | hy
    · exact h.pts y hy
    · rw [List.mem_singleton] at hy; rw [hy, hx]
  unfold push pushAdd
  rw [if_neg (by simp [hlen]), if_neg (by rw [h.win]; simp), h.dec]
  simp only
  unfold addDecay
  by_cases h0 : xs = []
  · subst h0
    have hc : c.count + 1 = 1 := by rw [h.count]; rfl
    simp only [hc, if_true]
    have hA : Adds (decayRule (1 : K)) 0 0 1 1 := ⟨fun v => by simp [decayRule], fun k dp hk => by simp [decayRule, hk], fun _ _ _ _ => by simp [decayRule]⟩
    obtain ⟨ns', e, hrep⟩ := updateAll_rep hg rfl hA (Or.inr rfl) h.rep hx
    rw [e]
    refine ⟨_, rfl, ⟨h.win, h.dec, rfl, hpts, ?_⟩⟩
    have := hrep ⟨List.zipWith (fun m e => m + 1 * e) c.means
        (List.zipWith (fun x m => x - m) x c.means), c.tuples, Map.copy c.sums ns', ns', 1, c.window, c.decay, c.queue⟩ rfl rfl rfl
      (by simp only [h.rep.means]; rw [List.zipWith_map_right])
    have hm : List.zipWith (· + ·) (emeans n d ([] : List (List K))) ((List.zipWith (· - ·) x (emeans n d [])).map ((1 : K) * ·)) = emeans n d [x] := by
      rw [emeans_nil]
      apply List.ext_getElem
      · simp [hx]
      · intro j h1 h2
        have hj : j < n := by simpa using h2
        have hjx : j < x.length := by omega
        simp only [emeans, List.getElem_map, List.getElem_range, List.getElem_zipWith, coord_one, Moment.ewMean_one, List.getElem_replicate]
        rw [getD_get hjx]; ring
    rw [hm] at this
    rw [List.nil_append, Moment.pairs_one]
    simpa [Moment.pairs] using this
  · have hc : ¬ c.count + 1 = 1 := by
      rw [h.count]
      have := List.length_pos_iff.2 h0
      omega
    simp only [hc, if_false]
    obtain ⟨ns', e, hrep⟩ := updateAll_rep hg rfl (decayRule_adds d) (Or.inl (pairs_sum d h0)) h.rep hx
    rw [e]
    refine ⟨_, rfl, ⟨h.win, h.dec, by simp [h.count], hpts, ?_⟩⟩
    have := hrep ⟨List.zipWith (fun m e => m + d * e) c.means
        (List.zipWith (fun x m => x - m) x c.means), c.tuples, Map.copy c.sums ns', ns', c.count + 1, c.window, c.decay, c.queue⟩ rfl rfl rfl
      (by simp only [h.rep.means]; rw [List.zipWith_map_right])
    rw [← emeans_snoc d h0 hx, ← Moment.pairs_snoc d h0] at this
    exact this

theorem clear_D {n : Nat} {ts : List (List Nat)} {d : K} {xs : List (List K)} {c : Core K} (h : D n ts d xs c) :
    D n ts d ([] : List (List K)) (clear c) :=
  ⟨h.win, h.dec, rfl, by simp, by rw [emeans_nil]; exact clear_rep h.rep⟩

theorem run_D {n : Nat} {ts : List (List Nat)} (hg : Good n ts) {d : K} {c : Core K} (h : D n ts d ([] : List (List K)) c)
    (ops : List (MOp (List K))) :
    ∃ c', run c ops = .val (c', List.replicate (ops.countP (fun o => !okArity n o)) "tried to push a wrong number of values") ∧
      D n ts d (since (ops.filter (okArity n))) c' := by
  induction ops using List.reverseRecOn with
  | nil => exact ⟨c, rfl, h⟩
  | append_singleton ops op ih =>
    obtain ⟨c', e, hW⟩ := ih
    unfold run at e ⊢
    rw [Go.runOps_append, e, List.filter_append, List.countP_append]
    cases op with
    | push x =>
      by_cases hx : x.length = n
      · obtain ⟨c'', e', hW'⟩ := push_D hg hW hx
        refine ⟨c'', by simp [Go.runOps, logged, step, e', okArity, hx], ?_⟩
        have : List.filter (okArity n) [MOp.push x] = [MOp.push x] := by simp [okArity, hx]
        rw [this, since_push]; exact hW'
      · have hne : x.length ≠ c'.means.length := by rw [hW.rep.means, hW.rep.len]; exact hx
        refine ⟨c', ?_, ?_⟩
        · simp only [Go.runOps, logged, step, push_arity hne, Go.val_bind, Go.pure_eq]
          simp [okArity, hx, List.replicate_succ']
        · have : List.filter (okArity n) [MOp.push x] = [] := by simp [okArity, hx]
          rw [this, List.append_nil]; exact hW
    | clear =>
      refine ⟨clear c', by simp [Go.runOps, logged, step, okArity], ?_⟩
      have : List.filter (okArity n) [(MOp.clear : MOp (List K))] = [MOp.clear] := by simp [okArity]
      rw [this, since_clear]; exact clear_D hW

end Verif.Joint
