import Verif.Model.Quantile
import Verif.Model.HeapMedian

/-!
# Counting steps: the order statistics and the two quantile metrics with a clock

Each function below is the function of the same name in the model (without the final `T`), written once more with a counter. The
counter ticks once per visited tree node (each call of a recursive method of `*Node`, nil receivers included) and once per iteration of the
loops of `container/heap`; everything between two ticks is a fixed number of assignments and comparisons. The `_out` theorems show that the
results are those of the model, so that only the placement of the ticks has to be read here.
-/

namespace Verif

/-- An outcome together with the number of steps. -/
structure Timed (α : Type) where
  out : Go α
  cost : Nat

namespace Timed

/-- Sequencing adds the steps; after a panic nothing is executed. -/
protected def bind {α β : Type} (m : Timed α) (f : α → Timed β) : Timed β :=
  match m.out with
  | .val a => ⟨(f a).out, m.cost + (f a).cost⟩
  | .panic => ⟨.panic, m.cost⟩
  | .hang => ⟨.hang, m.cost⟩

instance : Monad Timed where
  pure a := ⟨.val a, 0⟩
  bind := Timed.bind

/-- One step. -/
def tick : Timed Unit := ⟨.val (), 1⟩

/-- Code without loops or recursion: no step. -/
def free {α : Type} (g : Go α) : Timed α := ⟨g, 0⟩

@[simp] theorem pure_out {α : Type} (a : α) : (pure a : Timed α).out = .val a := rfl
@[simp] theorem pure_cost {α : Type} (a : α) : (pure a : Timed α).cost = 0 := rfl
@[simp] theorem free_out {α : Type} (g : Go α) : (free g).out = g := rfl
@[simp] theorem free_cost {α : Type} (g : Go α) : (free g).cost = 0 := rfl

@[simp] theorem bind_out {α β : Type} (m : Timed α) (f : α → Timed β) : (m >>= f).out = m.out >>= fun a => (f a).out := by
  show (Timed.bind m f).out = _
  unfold Timed.bind
  cases m.out <;> rfl

theorem bind_cost {α β : Type} (m : Timed α) (f : α → Timed β) :
    (m >>= f).cost = m.cost + match m.out with | .val a => (f a).cost | _ => 0 := by
  show (Timed.bind m f).cost = _
  unfold Timed.bind
  cases m.out <;> rfl

@[simp] theorem tick_bind_out {β : Type} (f : Unit → Timed β) : (tick >>= f).out = (f ()).out := rfl
@[simp] theorem tick_bind_cost {β : Type} (f : Unit → Timed β) : (tick >>= f).cost = 1 + (f ()).cost := rfl

/-- An upper bound for a sequence. -/
theorem bind_cost_le {α β : Type} {m : Timed α} {f : α → Timed β} {x y : Nat} (h1 : m.cost ≤ x)
    (h2 : ∀ a, m.out = .val a → (f a).cost ≤ y) : (m >>= f).cost ≤ x + y := by
  rw [bind_cost]
  cases h : m.out with
  | val a => have := h2 a h; simp; omega
  | panic => simp; omega
  | hang => simp; omega

end Timed
open Timed

/-! ### AVL tree -/

namespace Avl.Node
variable {F : Type}

/-- avl/node.go:81-93 `add`. -/
def addT [GoOrd F] : Node F → F → Timed (Node F)
  | nil, x => do tick; free (.val (newNode x))
  | node l v r _ _, x => do
    tick
    if x ≤ᵇ v then do
      let l' ← addT l x
      free (fixup l' v r)
    else do
      let r' ← addT r x
      free (fixup l v r')

/-- avl/node.go:124-130 `min`. -/
def minT : Node F → Timed F
  | nil => do tick; free .panic
  | node l v _ _ _ => do
    tick
    match l with
    | nil => free (.val v)
    | node .. => minT l

/-- avl/node.go:132-141 `removeMin`. -/
def removeMinT : Node F → Timed (Node F)
  | nil => do tick; free .panic
  | node l v r _ _ => do
    tick
    match l with
    | nil => free (.val r)
    | node .. => do
      let l' ← removeMinT l
      free (fixup l' v r)

/-- avl/node.go:95-122 `remove`. -/
def removeT [GoOrd F] : Node F → F → Timed (Node F)
  | nil, _ => do tick; free (.val nil)
  | node l v r _ _, x => do
    tick
    if x <ᵇ v then do
      let l' ← removeT l x
      free (fixup l' v r)
    else if v <ᵇ x then do
      let r' ← removeT r x
      free (fixup l v r')
    else
      match l, r with
      | nil, _ => free (.val r)
      | _, nil => free (.val l)
      | _, _ => do
        let m ← minT r
        let r' ← removeMinT r
        free (fixup l m r')

/-- avl/node.go:209-222 `Select`. -/
def selectT : Node F → Int → Timed (Option F)
  | nil, _ => do tick; free (.val none)
  | node l v r _ _, k => do
    tick
    if k < l.size then selectT l k
    else if k > l.size then selectT r (k - l.size - 1)
    else free (.val (some v))

theorem addT_out [GoOrd F] (n : Node F) (x : F) : (n.addT x).out = n.add x := by
  induction n with
  | nil => rfl
  | node l v r h s ihl ihr =>
    simp only [addT, add, tick_bind_out]
    split <;> simp [ihl, ihr]

theorem minT_out (n : Node F) : n.minT.out = n.min := by
  induction n with
  | nil => rfl
  | node l v r h s ihl ihr =>
    cases l with
    | nil => rfl
    | node => rw [minT, min, tick_bind_out]; exact ihl

theorem removeMinT_out (n : Node F) : n.removeMinT.out = n.removeMin := by
  induction n with
  | nil => rfl
  | node l v r h s ihl ihr =>
    cases l with
    | nil => rfl
    | node => rw [removeMinT, removeMin, tick_bind_out]; simp only [bind_out, ihl, free_out]

theorem removeT_out [GoOrd F] (n : Node F) (x : F) : (n.removeT x).out = n.remove x := by
  induction n with
  | nil => rfl
  | node l v r h s ihl ihr =>
    rw [removeT.eq_def, remove.eq_def]
    simp only [tick_bind_out]
    split
    · simp only [bind_out, ihl, free_out]
    · split
      · simp only [bind_out, ihr, free_out]
      · cases l <;> cases r <;> simp only [bind_out, minT_out, removeMinT_out, free_out]

theorem selectT_out (n : Node F) (k : Int) : (n.selectT k).out = .val (n.select k) := by
  induction n generalizing k with
  | nil => rfl
  | node l v r h s ihl ihr =>
    rw [selectT, select, tick_bind_out]
    split
    · exact ihl _
    · split
      · exact ihr _
      · rfl

end Avl.Node

/-! ### Red-black tree -/

namespace Rb.Node
variable {F : Type}

/-- rb/node.go:93-102 `add`. -/
def addT [GoOrd F] : Node F → F → Timed (Node F)
  | nil, x => do tick; free (.val (newNode x))
  | node l v r c s, x => do
    tick
    if x ≤ᵇ v then do
      let l' ← addT l x
      free (addBalance (node l' v r c s))
    else do
      let r' ← addT r x
      free (addBalance (node l v r' c s))

/-- rb/node.go:155-166 `contains`. -/
def containsT [GoOrd F] : Node F → F → Timed Bool
  | nil, _ => do tick; pure false
  | node l v r _ _, x => do
    tick
    if x =ᵇ v then pure true
    else if x <ᵇ v then containsT l x
    else containsT r x

/-- rb/node.go:148-153 `min`. -/
def minT : Node F → Timed F
  | nil => do tick; free .panic
  | node l v _ _ _ => do
    tick
    match l with
    | nil => free (.val v)
    | node .. => minT l

/-- rb/node.go:136-146 `removeMin`. -/
def removeMinT : Nat → Node F → Timed (Node F)
  | 0, _ => free .hang
  | fuel + 1, n => do
    tick
    match n with
    | nil => free .panic
    | node nil _ _ _ _ => free (.val nil)
    | node l@(node ..) _ _ _ _ => do
      let bb ← free l.blackBlack
      let n ← free (if bb then n.moveRedLeft else .val n : Go (Node F))
      match n with
      | nil => free .panic
      | node l v r c s => do
        let l' ← removeMinT fuel l
        free (removeBalance (node l' v r c s))

/-- rb/node.go:104-134 `remove`; note that every recursive call searches the whole subtree first. -/
def removeT [GoOrd F] : Nat → Node F → F → Timed (Node F)
  | 0, _, _ => free .hang
  | fuel + 1, n, x => do
    tick
    let c ← n.containsT x
    if !c then free (.val n)
    else
      match n with
      | nil => free .panic
      | node l v _ _ _ =>
        if x <ᵇ v then do
          let bb ← free l.blackBlack
          let n ← free (if bb then n.moveRedLeft else .val n : Go (Node F))
          match n with
          | nil => free .panic
          | node l v r c s => do
            let l' ← removeT fuel l x
            free (removeBalance (node l' v r c s))
        else do
          let n ← free (if l.color then n.rotateRight else .val n : Go (Node F))
          match n with
          | nil => free .panic
          | node _ v r _ _ =>
            if (x =ᵇ v) && r.isNil then free (.val nil)
            else do
              let bb ← free r.blackBlack
              let n ← free (if bb then n.moveRedRight else .val n : Go (Node F))
              match n with
              | nil => free .panic
              | node l v r c s =>
                if x =ᵇ v then do
                  let m ← r.minT
                  let r' ← removeMinT fuel r
                  free (removeBalance (node l m r' c s))
                else do
                  let r' ← removeT fuel r x
                  free (removeBalance (node l v r' c s))

/-- rb/node.go:255-268 `Select`. -/
def selectT : Node F → Int → Timed (Option F)
  | nil, _ => do tick; free (.val none)
  | node l v r _ _, k => do
    tick
    if k < l.size then selectT l k
    else if k > l.size then selectT r (k - l.size - 1)
    else free (.val (some v))

theorem addT_out [GoOrd F] (n : Node F) (x : F) : (n.addT x).out = n.add x := by
  induction n with
  | nil => rfl
  | node l v r h s ihl ihr =>
    simp only [addT, add, tick_bind_out]
    split <;> simp [ihl, ihr]

theorem containsT_out [GoOrd F] (n : Node F) (x : F) : (n.containsT x).out = .val (n.contains x) := by
  induction n with
  | nil => rfl
  | node l v r h s ihl ihr =>
    rw [containsT, contains, tick_bind_out]
    split
    · rfl
    · split
      · exact ihl
      · exact ihr

theorem minT_out (n : Node F) : n.minT.out = n.min := by
  induction n with
  | nil => rfl
  | node l v r h s ihl ihr =>
    cases l with
    | nil => rfl
    | node => rw [minT, min, tick_bind_out]; exact ihl

theorem removeMinT_out (fuel : Nat) (n : Node F) : (removeMinT fuel n).out = removeMin fuel n := by
  induction fuel generalizing n with
  | zero => rfl
  | succ fuel ih =>
    rw [removeMinT.eq_def, removeMin.eq_def]
    simp only [tick_bind_out]
    rcases n with _ | ⟨_ | ⟨ll, lv, lr, lc, ls⟩, v, r, c, s⟩
    · rfl
    · rfl
    · simp only [bind_out, free_out]
      congr 1; funext bb
      congr 1; funext n
      cases n with
      | nil => rfl
      | node => simp only [bind_out, free_out, ih]

theorem removeT_out [GoOrd F] (fuel : Nat) (n : Node F) (x : F) : (removeT fuel n x).out = remove fuel n x := by
  induction fuel generalizing n with
  | zero => rfl
  | succ fuel ih =>
    rw [removeT.eq_def, remove.eq_def]
    simp only [tick_bind_out]
    rw [bind_out, containsT_out, Go.val_bind]
    split
    · rfl
    · cases n with
      | nil => rfl
      | node l v r c s =>
        simp only
        split
        · simp only [bind_out, free_out]
          congr 1; funext bb
          congr 1; funext n
          cases n with
          | nil => rfl
          | node => simp only [bind_out, free_out, ih]
        · simp only [bind_out, free_out]
          congr 1; funext n
          cases n with
          | nil => rfl
          | node l v r c s =>
            simp only
            split
            · rfl
            · simp only [bind_out, free_out]
              congr 1; funext bb
              congr 1; funext n
              cases n with
              | nil => rfl
              | node l v r c s =>
                simp only
                split
                · simp only [bind_out, free_out, minT_out, removeMinT_out]
                · simp only [bind_out, free_out, ih]

theorem selectT_out (n : Node F) (k : Int) : (n.selectT k).out = .val (n.select k) := by
  induction n generalizing k with
  | nil => rfl
  | node l v r h s ihl ihr =>
    rw [selectT, select, tick_bind_out]
    split
    · exact ihl _
    · split
      · exact ihr _
      · rfl

end Rb.Node

/-! ### `Quantile` over any order statistic with a clock -/

namespace Quant
variable {F : Type}

/-- The operations of an order statistic with a clock. -/
structure Timing (st : Statistic F) where
  add : st.σ → F → Timed st.σ
  remove : st.σ → F → Timed st.σ
  select : st.σ → Int → Timed (Option F)
  add_out : ∀ s x, (add s x).out = st.add s x
  remove_out : ∀ s x, (remove s x).out = st.remove s x
  select_out : ∀ s k, (select s k).out = st.select s k

/-- avl/tree.go:23-35. -/
def avlTiming [GoOrd F] : Timing (avlStat F) where
  add t x := do let r ← Avl.Node.addT (Avl.Tree.root t) x; pure ⟨r⟩
  remove t x := do let r ← Avl.Node.removeT (Avl.Tree.root t) x; pure ⟨r⟩
  select t k := Avl.Node.selectT (Avl.Tree.root t) k
  add_out t x := by simp only [bind_out, Avl.Node.addT_out]; rfl
  remove_out t x := by simp only [bind_out, Avl.Node.removeT_out]; rfl
  select_out t k := Avl.Node.selectT_out _ _

/-- rb/tree.go:18-35. -/
def rbTiming [GoOrd F] : Timing (rbStat F) where
  add t x := do let r ← Rb.Node.addT (Rb.Tree.root t) x; pure ⟨r⟩
  remove t x := do let r ← Rb.Node.removeT ((Rb.Tree.root t).nodes + 1) (Rb.Tree.root t) x; pure ⟨r⟩
  select t k := Rb.Node.selectT (Rb.Tree.root t) k
  add_out t x := by simp only [bind_out, Rb.Node.addT_out]; rfl
  remove_out t x := by simp only [bind_out, Rb.Node.removeT_out]; rfl
  select_out t k := Rb.Node.selectT_out _ _

namespace Quantile
variable {st : Statistic F}

/-- quantile.go:68-91 `Push`: the steps are those of the order statistic. -/
def pushT (T : Timing st) (q : Quantile st) (x : F) : Timed (Quantile st × Option Err) :=
  if q.window ≠ 0 then
    (if (q.queue.len : Int) = q.window then do
      match ← free q.queue.get with
      | .error e => pure (q, some e)
      | .ok (y, queue) => do
        let s ← T.remove q.statistic y
        put { q with queue := queue, statistic := s }
    else put q)
  else add q
where
  /-- quantile.go:83-90. -/
  put (q : Quantile st) : Timed (Quantile st × Option Err) := do
    match ← free (q.queue.put x) with
    | .error e => pure (q, some e)
    | .ok queue => add { q with queue := queue }
  /-- quantile.go:89-90. -/
  add (q : Quantile st) : Timed (Quantile st × Option Err) := do
    let s ← T.add q.statistic x
    pure ({ q with statistic := s }, none)

theorem pushT_add_out (T : Timing st) (x : F) (q : Quantile st) : (pushT.add T x q).out = push.add x q := by
  unfold pushT.add push.add
  rw [bind_out, T.add_out]
  cases st.add q.statistic x <;> rfl

theorem pushT_put_out (T : Timing st) (x : F) (q : Quantile st) : (pushT.put T x q).out = push.put x q := by
  unfold pushT.put push.put
  rw [bind_out, free_out]
  rcases q.queue.put x with (e | s) | _ | _
  · rfl
  · exact pushT_add_out T x _
  · rfl
  · rfl

theorem pushT_out (T : Timing st) (q : Quantile st) (x : F) : (q.pushT T x).out = q.push x := by
  unfold pushT push
  split
  · split
    · rw [bind_out, free_out]
      rcases q.queue.get with (e | ⟨y, s⟩) | _ | _
      · rfl
      · simp only [Go.val_bind, bind_out, T.remove_out]
        cases st.remove q.statistic y with
        | val s => exact pushT_put_out T x _
        | panic => rfl
        | hang => rfl
      · rfl
      · rfl
    · exact pushT_put_out T x _
  · exact pushT_add_out T x _

/-- `q.statistic.Select(k).Value()`. -/
def selT (T : Timing st) (q : Quantile st) (k : Int) : Timed F := do
  match ← T.select q.statistic k with
  | some v => pure v
  | none => free .panic

theorem selT_out (T : Timing st) (q : Quantile st) (k : Int) : (q.selT T k).out = q.sel k := by
  unfold selT sel
  rw [bind_out, T.select_out]
  rcases st.select q.statistic k with (_ | v) | _ | _ <;> rfl

/-- quantile.go:94-143 `Value`. -/
def valueT [GoOrd F] (O : FOps F) (T : Timing st) (q : Quantile st) (quantile : F) : Timed (Except Err F) :=
  if (quantile ≤ᵇ O.ofInt 0) || (O.ofInt 1 ≤ᵇ quantile) then pure (.error "quantile not in (0, 1)")
  else
    let size := st.size q.statistic
    if size = 0 then pure (.error "no values seen yet")
    else
      let idxRaw := O.mul quantile (O.ofInt (size - 1))
      let idxTrunc := O.trunc idxRaw
      let idx := O.toInt idxTrunc
      if idxRaw =ᵇ idxTrunc then do
        let v ← q.selT T idx
        pure (.ok v)
      else
        let delta := O.sub idxRaw idxTrunc
        if q.interpolation = Linear then do
          let lo ← q.selT T idx
          let hi ← q.selT T (idx + 1)
          pure (.ok (O.add (O.mul (O.sub (O.ofInt 1) delta) lo) (O.mul delta hi)))
        else if q.interpolation = Lower then do
          let v ← q.selT T idx
          pure (.ok v)
        else if q.interpolation = Higher then do
          let v ← q.selT T (idx + 1)
          pure (.ok v)
        else if q.interpolation = Nearest then
          let half := O.div (O.ofInt 1) (O.ofInt 2)
          if delta =ᵇ half then
            if Int.tmod idx 2 = 0 then do
              let v ← q.selT T idx
              pure (.ok v)
            else do
              let v ← q.selT T (idx + 1)
              pure (.ok v)
          else if delta <ᵇ half then do
            let v ← q.selT T idx
            pure (.ok v)
          else do
            let v ← q.selT T (idx + 1)
            pure (.ok v)
        else do
          let lo ← q.selT T idx
          let hi ← q.selT T (idx + 1)
          pure (.ok (O.div (O.add lo hi) (O.ofInt 2)))

theorem valueT_out [GoOrd F] (O : FOps F) (T : Timing st) (q : Quantile st) (x : F) :
    (q.valueT O T x).out = q.value O x := by
  unfold valueT value
  split
  · rfl
  · simp only
    repeat' split
    all_goals simp only [bind_out, selT_out, pure_out, Go.pure_eq]

end Quantile
end Quant

/-! ### Heaps and `HeapMedian` -/

namespace Heap
variable {F : Type}

/-- container/heap `up`. -/
def upT : Nat → Mem F → Heap F → Nat → Timed (Mem F × Heap F)
  | 0, _, _, _ => free .hang
  | fuel + 1, m, h, j => do
    tick
    let i := (j - 1) / 2
    if i = j then free (.val (m, h))
    else do
      let b ← free (less m h j i)
      if b then do
        let r ← free (swap m h i j)
        upT fuel r.1 r.2 i
      else free (.val (m, h))

/-- container/heap `down`. -/
def downT : Nat → Mem F → Heap F → Nat → Nat → Timed (Mem F × Heap F × Nat)
  | 0, _, _, _, _ => free .hang
  | fuel + 1, m, h, i, n => do
    tick
    let j1 := 2 * i + 1
    if j1 ≥ n then free (.val (m, h, i))
    else do
      let j ← free (if j1 + 1 < n then do
          let b ← less m h (j1 + 1) j1
          pure (if b then j1 + 1 else j1)
        else pure j1)
      let b ← free (less m h j i)
      if b then do
        let r ← free (swap m h i j)
        downT fuel r.1 r.2 j n
      else free (.val (m, h, i))

/-- container/heap `Push`. -/
def pushT (m : Mem F) (h : Heap F) (a : Nat) : Timed (Mem F × Heap F) :=
  let r := rawPush m h a
  upT (r.2.len + 1) r.1 r.2 (r.2.len - 1)

/-- container/heap `Pop`. -/
def popT (m : Mem F) (h : Heap F) : Timed (Nat × Mem F × Heap F) :=
  if h.len = 0 then free .panic
  else do
    let n := h.len - 1
    let r ← free (swap m h 0 n)
    let r ← downT (n + 1) r.1 r.2 0 n
    free (rawPop r.1 r.2.1)

/-- container/heap `Fix`. -/
def fixT (m : Mem F) (h : Heap F) (i : Int) : Timed (Mem F × Heap F) :=
  if i < 0 then free (.val (m, h))
  else do
    let r ← downT (h.len + 1) m h i.toNat h.len
    if r.2.2 > i.toNat then free (.val (r.1, r.2.1)) else upT (i.toNat + 1) r.1 r.2.1 i.toNat

/-- container/heap `Remove`. -/
def removeAtT (m : Mem F) (h : Heap F) (i : Int) : Timed (Mem F × Heap F) :=
  if i < 0 ∨ h.len = 0 then free .panic
  else do
    let n := h.len - 1
    let r ← (if n ≠ i.toNat then do
        let r ← free (swap m h i.toNat n)
        let r ← downT (n + 1) r.1 r.2 i.toNat n
        if r.2.2 > i.toNat then free (.val (r.1, r.2.1)) else upT (i.toNat + 1) r.1 r.2.1 i.toNat
      else free (.val (m, h)))
    let r ← free (rawPop r.1 r.2)
    pure r.2

/-- heap.go:97-100 `Update`. -/
def updateT (m : Mem F) (h : Heap F) (a : Nat) (x : F) : Timed (Mem F × Heap F) :=
  let m := { m with val := upd m.val a x }
  fixT m h (m.idx a)

/-- heap.go:103-105 `Remove`. -/
def removeT (m : Mem F) (h : Heap F) (a : Nat) : Timed (Mem F × Heap F) := removeAtT m h (m.idx a)

theorem upT_out (fuel : Nat) (m : Mem F) (h : Heap F) (j : Nat) : (upT fuel m h j).out = up fuel m h j := by
  induction fuel generalizing m h j with
  | zero => rfl
  | succ fuel ih =>
    rw [upT, up, tick_bind_out]
    simp only
    split
    · rfl
    · simp only [bind_out, free_out]
      congr 1; funext b
      cases b
      · rfl
      · simp only [if_true, bind_out, free_out, ih]

theorem downT_out (fuel : Nat) (m : Mem F) (h : Heap F) (i n : Nat) : (downT fuel m h i n).out = down fuel m h i n := by
  induction fuel generalizing m h i with
  | zero => rfl
  | succ fuel ih =>
    rw [downT, down, tick_bind_out]
    simp only
    split
    · rfl
    · simp only [bind_out, free_out]
      congr 1; funext j
      congr 1; funext b
      cases b
      · rfl
      · simp only [if_true, bind_out, free_out, ih]

theorem pushT_out (m : Mem F) (h : Heap F) (a : Nat) : (pushT m h a).out = push m h a := upT_out _ _ _ _

theorem popT_out (m : Mem F) (h : Heap F) : (popT m h).out = pop m h := by
  unfold popT pop
  split
  · rfl
  · simp only [bind_out, free_out, downT_out]

theorem fixT_out (m : Mem F) (h : Heap F) (i : Int) : (fixT m h i).out = fix m h i := by
  unfold fixT fix
  split
  · rfl
  · simp only [bind_out, downT_out]
    congr 1; funext r
    split
    · rfl
    · exact upT_out _ _ _ _

theorem removeAtT_out (m : Mem F) (h : Heap F) (i : Int) : (removeAtT m h i).out = removeAt m h i := by
  unfold removeAtT removeAt
  split
  · rfl
  · simp only [bind_out, free_out, pure_out]
    congr 1
    split
    · simp only [bind_out, free_out, downT_out]
      congr 1; funext r
      congr 1; funext r
      split
      · rfl
      · exact upT_out _ _ _ _
    · rfl

theorem updateT_out (m : Mem F) (h : Heap F) (a : Nat) (x : F) : (updateT m h a x).out = update m h a x := fixT_out _ _ _
theorem removeT_out (m : Mem F) (h : Heap F) (a : Nat) : (removeT m h a).out = remove m h a := removeAtT_out _ _ _

end Heap

namespace HeapMedian
open Heap
variable {F : Type} [GoOrd F]

/-- heap_median.go:115-124 `rebalance`. -/
def rebalanceT (s : HM F) (item : Nat) : Timed (HM F × Nat) :=
  if s.low.len + 1 < s.high.len then do
    let r ← popT s.mem s.high
    let q ← Heap.pushT r.2.1 s.low r.1
    pure ({ s with mem := q.1, high := r.2.2, low := q.2 }, r.1)
  else if s.low.len > s.high.len + 1 then do
    let r ← popT s.mem s.low
    let q ← Heap.pushT r.2.1 s.high r.1
    pure ({ s with mem := q.1, low := r.2.2, high := q.2 }, r.1)
  else pure (s, item)

/-- heap_median.go:77-93. -/
def replaceT (s : HM F) (item : Nat) (x : F) : Timed (HM F) :=
  if s.mem.hid item = s.low.id then do
    let p ← free (peek s.mem s.low)
    if x ≤ᵇ p then do
      let r ← updateT s.mem s.low item x
      pure { s with mem := r.1, low := r.2 }
    else if p <ᵇ x then do
      let r ← Heap.removeT s.mem s.low item
      let q ← Heap.pushT { r.1 with val := upd r.1.val item x } s.high item
      pure { s with mem := q.1, low := r.2, high := q.2 }
    else do
      let r ← Heap.removeT s.mem s.high item
      let q ← Heap.pushT { r.1 with val := upd r.1.val item x } s.low item
      pure { s with mem := q.1, high := r.2, low := q.2 }
  else do
    let p ← free (peek s.mem s.low)
    if p <ᵇ x then do
      let r ← updateT s.mem s.high item x
      pure { s with mem := r.1, high := r.2 }
    else do
      let r ← Heap.removeT s.mem s.high item
      let q ← Heap.pushT { r.1 with val := upd r.1.val item x } s.low item
      pure { s with mem := q.1, high := r.2, low := q.2 }

/-- heap_median.go:96-101. -/
def insertT (s : HM F) (x : F) : Timed (HM F × Nat) := do
  let item := s.next
  let m : Mem F := ⟨upd s.mem.val item x, upd s.mem.hid item "", upd s.mem.idx item 0⟩
  let b ← free (if s.low.len = 0 then pure true else do
    let p ← peek m s.low
    pure (x ≤ᵇ p))
  if b then do
    let r ← Heap.pushT m s.low item
    pure ({ s with mem := r.1, low := r.2, next := s.next + 1 }, item)
  else do
    let r ← Heap.pushT m s.high item
    pure ({ s with mem := r.1, high := r.2, next := s.next + 1 }, item)

/-- heap_median.go:64-113 `Push`. -/
def pushT (s : HM F) (x : F) : Timed (HM F × Option Err) :=
  if s.window ≠ 0 ∧ (s.queue.len : Int) = s.window then do
    match ← free s.queue.get with
    | .error e => pure (s, some e)
    | .ok (item, q) => do
      let s ← replaceT { s with queue := q } item x
      let r ← rebalanceT s item
      free (enqueue r.1 r.2)
  else do
    let r ← insertT s x
    let r ← rebalanceT r.1 r.2
    free (enqueue r.1 r.2)

omit [GoOrd F] in
theorem rebalanceT_out (s : HM F) (item : Nat) : (rebalanceT s item).out = rebalance s item := by
  unfold rebalanceT rebalance
  split
  · simp only [bind_out, popT_out, Heap.pushT_out, pure_out, Go.pure_eq]
  · split
    · simp only [bind_out, popT_out, Heap.pushT_out, pure_out, Go.pure_eq]
    · rfl

theorem replaceT_out (s : HM F) (item : Nat) (x : F) : (replaceT s item x).out = replace s item x := by
  unfold replaceT replace
  split
  · simp only [bind_out, free_out]
    congr 1; funext p
    split
    · simp only [bind_out, updateT_out, pure_out, Go.pure_eq]
    · split
      · simp only [bind_out, Heap.removeT_out, Heap.pushT_out, pure_out, Go.pure_eq]
      · simp only [bind_out, Heap.removeT_out, Heap.pushT_out, pure_out, Go.pure_eq]
  · simp only [bind_out, free_out]
    congr 1; funext p
    split
    · simp only [bind_out, updateT_out, pure_out, Go.pure_eq]
    · simp only [bind_out, Heap.removeT_out, Heap.pushT_out, pure_out, Go.pure_eq]

theorem insertT_out (s : HM F) (x : F) : (insertT s x).out = insert s x := by
  unfold insertT insert
  simp only [bind_out, free_out]
  congr 1; funext b
  cases b
  · simp only [Bool.false_eq_true, if_false, bind_out, Heap.pushT_out, pure_out, Go.pure_eq]
  · simp only [if_true, bind_out, Heap.pushT_out, pure_out, Go.pure_eq]

theorem pushT_out (s : HM F) (x : F) : (pushT s x).out = push s x := by
  unfold pushT push
  split
  · rw [bind_out, free_out]
    rcases s.queue.get with (e | ⟨y, q⟩) | _ | _
    · rfl
    · simp only [Go.val_bind, bind_out, replaceT_out, rebalanceT_out, free_out]
    · rfl
    · rfl
  · simp only [bind_out, insertT_out, rebalanceT_out, free_out]

end HeapMedian
end Verif
