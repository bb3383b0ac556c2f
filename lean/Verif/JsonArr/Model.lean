/-!
# Json arrays in shared memory

`Json` values that are arrays hold a pointer to a block (`ArrayJson`) with a reference
count.  Copying a value only counts another reference; a block is copied when an array that
shares it is about to change.  The functions below follow /repo/json.hh and /repo/json.cc
step by step on a memory of such blocks.

Simplifications:
* strings, booleans and doubles behave like the integers here (no block of this kind); Json
  objects are not modelled (they have the same reference counts; their table is property
  C59);
* reference counts, sizes and capacities are natural numbers (no overflow of `int`);
* a new block gets an address that was never used before, so that a use of a block after its
  release is visible: every function answers `none` when it would use a released block, a
  place outside of a block, or violate an assertion;
* while a nested element `x[i][j]` is changed, the element is shown as taken out of its
  array (a null is left behind) and put back afterwards.  In the program it is changed in
  place.
-/
namespace Verif.JsonArr

/-- A `Json` (`rep_type`, /repo/json.hh:367-375): null, a primitive value, or an array with
or without a block (`make_array`, /repo/json.hh:1614-1618, makes one without). -/
inductive Val where
  | null
  | num (i : Int)
  | arr (p : Option Nat)
  deriving DecidableEq, Repr

/-- Json values as mathematical values. -/
inductive JV where
  | null
  | num (i : Int)
  | arr (l : List JV)
  deriving Repr

/-- `ArrayJson`, /repo/json.hh:351-361 and 420-430. -/
structure Node where
  rc : Nat
  cap : Nat
  elems : List Val
  deriving DecidableEq, Repr

/-- All blocks that were ever made; released ones are `none`. -/
abbrev Heap := List (Option Node)

/-- The block at an address, if it was not released. -/
def get (h : Heap) (a : Nat) : Option Node := (h[a]?).join

/-- Copying a `Json` counts a reference: /repo/json.hh:485-488, 1492-1498, 2929-2930. -/
def ref (h : Heap) : Val → Option Heap
  | .arr (some a) =>
    match get h a with
    | some n => some (h.set a (some { n with rc := n.rc + 1 }))
    | none => none
  | _ => some h

/-- Copy construction of several elements, /repo/json.cc:257-258. -/
def refAll (h : Heap) : List Val → Option Heap
  | [] => some h
  | v :: vs => do refAll (← ref h v) vs

/-- Destruction of values: `deref`, /repo/json.hh:490-497 and 1601-1611, and
`ArrayJson::destroy`, /repo/json.cc:71-76.  The elements of a released block are destroyed
in turn.  The first argument bounds the number of steps, see `weight`. -/
def dropF : Nat → Heap → List Val → Option Heap
  | _, h, [] => some h
  | 0, _, _ :: _ => none
  | k + 1, h, .arr (some a) :: ws =>
    match get h a with
    | none => none
    | some n =>
      if n.rc = 1 then dropF k (h.set a none) (n.elems ++ ws)
      else dropF k (h.set a (some { n with rc := n.rc - 1 })) ws
  | k + 1, h, _ :: ws => dropF k h ws

/-- How many destructions a block can cause. -/
def nodeWeight : Option Node → Nat
  | none => 0
  | some n => n.elems.length + 1

/-- How many destructions the blocks of a memory can cause. -/
def weight (h : Heap) : Nat := (h.map nodeWeight).sum

/-- Destruction of values, with enough steps. -/
def drop (h : Heap) (ws : List Val) : Option Heap := dropF (weight h + ws.length) h ws

/-- The smallest power of two that is at least `n`: `iceil_log2`, /repo/compiler.hh:703-710
(the function itself is property C33). -/
def pow2Up (n : Nat) : Nat := if n ≤ 1 then 1 else 2 ^ (Nat.log2 (n - 1) + 1)

/-- The capacity of a new block, /repo/json.cc:236-244 and 66. -/
def newCap (ncap size : Nat) : Nat :=
  let n := max (max ncap 8) size
  if pow2Up n ≤ 2 ^ 14 then pow2Up n else ((n - 1) / 2 ^ 14) * 2 ^ 14 + 2 ^ 14

/-- `hard_uniqueify_array`, /repo/json.cc:230-279, for values other than objects. -/
def hardUniqueify (convert : Bool) (ncap : Nat) (h : Heap) (v : Val) : Option (Heap × Val) :=
  match v with
  | .arr (some a) =>
    match get h a with
    | none => none
    | some n =>
      let c := newCap ncap n.elems.length
      if n.rc = 1 then
        some (h.set a none ++ [some ⟨1, c, n.elems⟩], .arr (some h.length))
      else do
        let h1 ← refAll h n.elems
        let h2 ← drop (h1 ++ [some ⟨1, c, n.elems⟩]) [.arr (some a)]
        some (h2, .arr (some h.length))
  | .num _ =>
    if convert then some (h ++ [some ⟨1, newCap ncap 0, []⟩], .arr (some h.length)) else none
  | _ => some (h ++ [some ⟨1, newCap ncap 0, []⟩], .arr (some h.length))

/-- `uniqueify_array`, /repo/json.hh:509-513. -/
def uniqueify (convert : Bool) (ncap : Nat) (h : Heap) (v : Val) : Option (Heap × Val) :=
  match v with
  | .arr (some a) =>
    match get h a with
    | none => none
    | some n =>
      if n.rc ≠ 1 ∨ (0 < ncap ∧ n.cap < ncap) then hardUniqueify convert ncap h v
      else some (h, v)
  | _ => hardUniqueify convert ncap h v

/-- Changes the elements of the block of an array; no more elements than its capacity. -/
def write (h : Heap) (v : Val) (es : List Val) : Option Heap :=
  match v with
  | .arr (some a) =>
    match get h a with
    | none => none
    | some n =>
      if es.length ≤ n.cap then some (h.set a (some { n with elems := es })) else none
  | _ => none

/-- The elements in the block of an array. -/
def elemsOf (h : Heap) : Val → Option (List Val)
  | .arr (some a) => (get h a).map (·.elems)
  | _ => none

/-- `get_insert` with an index, /repo/json.hh:2452-2459, and `hard_get_insert`,
/repo/json.cc:532-544: the array owns its block and is long enough afterwards. -/
def getInsert (i : Nat) (h : Heap) (v : Val) : Option (Heap × Val) := do
  let (h1, v1) ← uniqueify true (i + 1) h v
  let es ← elemsOf h1 v1
  if es.length ≤ i then
    let h2 ← write h1 v1 (es ++ List.replicate (i + 1 - es.length) .null)
    some (h2, v1)
  else some (h1, v1)

/-- A change to a `Json`: the new memory, the new contents, and values handed out. -/
abbrev Change := Heap → Val → Option (Heap × Val × List Val)

/-- A change to the element `x[i][j]...`: the proxies' `value()`, /repo/json.hh:1388-1390. -/
def modify (f : Change) : List Nat → Change
  | [], h, v => f h v
  | i :: p, h, v => do
    let (h1, v1) ← getInsert i h v
    let es ← elemsOf h1 v1
    let w ← es[i]?
    let h2 ← write h1 v1 (es.set i .null)
    let (h3, w', out) ← modify f p h2 w
    let es3 ← elemsOf h3 v1
    let h4 ← write h3 v1 (es3.set i w')
    some (h4, v1, out)

/-- `operator=(int)`, /repo/json.hh:2948-2953. -/
def setNum (i : Int) : Change := fun h v => do
  let h1 ← drop h [v]
  some (h1, .num i, [])

/-- `operator=(const Json&)`, /repo/json.hh:2926-2934. -/
def assign (w : Val) : Change := fun h v => do
  let h1 ← ref h w
  let h2 ← drop h1 [v]
  some (h2, w, [])

/-- `operator=(Json&&)`, /repo/json.hh:2936-2940: the values are swapped. -/
def moveIn (w : Val) : Change := fun h v => some (h, w, [v])

/-- The number of elements, `u_.a.x ? u_.a.x->size : 0`, /repo/json.cc:340. -/
def sizeV (h : Heap) : Val → Option Nat
  | .null => some 0
  | .num _ => none
  | .arr none => some 0
  | .arr (some a) => (get h a).map (·.elems.length)

/-- `uniqueify_array_insert`, /repo/json.cc:339-350, as used by `push_back(Json)`
(/repo/json.hh:2519-2522, no position) and `insert(position, Json)`
(/repo/json.hh:2561-2566).  The argument was copied by the caller and is moved into the
array. -/
def insertAt (pos : Option Nat) (w : Val) : Change := fun h v => do
  let size ← sizeV h v
  let (h1, v1) ← uniqueify false (size + 1) h v
  let es ← elemsOf h1 v1
  let k := pos.getD size
  if k ≤ size then
    let h2 ← write h1 v1 (es.take k ++ w :: es.drop k)
    some (h2, v1, [])
  else none

/-- The element `i` after the elements from `k` on were moved up (`get`,
/repo/json.hh:2439-2445, after /repo/json.cc:345-348).  `memmove` leaves the old bits in the
place `k`; at the end of the array the new place holds nothing. -/
def shifted (es : List Val) (k i : Nat) : Option Val :=
  if i < k then es[i]? else if i = k then es[k]? else
    if i ≤ es.length then es[i - 1]? else some .null

/-- `insert(position, proxy)` and `push_back(proxy)`, /repo/json.hh:2525-2528 and 2569-2574,
where the proxy is the element `i` of the same array: `new(place) Json(x.cvalue())`.  The
place is made before the element is looked up (the order that C++17 prescribes), so that the
lookup finds the shifted elements. -/
def insertOwn (pos : Option Nat) (i : Nat) : Change := fun h v => do
  let size ← sizeV h v
  let (h1, v1) ← uniqueify false (size + 1) h v
  let es ← elemsOf h1 v1
  let k := pos.getD size
  if k ≤ size then
    let w ← shifted es k i
    let h2 ← ref h1 w
    let h3 ← write h2 v1 (es.take k ++ w :: es.drop k)
    some (h3, v1, [])
  else none

/-- `pop_back`, /repo/json.hh:2532-2537. -/
def popBack : Change := fun h v => do
  let size ← sizeV h v
  if size = 0 then none else
  let (h1, v1) ← uniqueify false 0 h v
  let es ← elemsOf h1 v1
  let h2 ← write h1 v1 (es.take (es.length - 1))
  let h3 ← drop h2 (es.drop (es.length - 1))
  some (h3, v1, [])

/-- `erase`, /repo/json.cc:352-366.  The positions are within the array. -/
def erase (first last : Nat) : Change := fun h v => do
  let size ← sizeV h v
  if size < last then none else
  if first < last then
    let (h1, v1) ← uniqueify false 0 h v
    let es ← elemsOf h1 v1
    let h2 ← write h1 v1 (es.take first ++ es.drop last)
    let h3 ← drop h2 ((es.take last).drop first)
    some (h3, v1, [])
  else some (h, v, [])

/-- `resize`, /repo/json.cc:374-382: elements are destroyed from the end, or nulls added. -/
def resize (n : Nat) : Change := fun h v => do
  let (h1, v1) ← uniqueify false n h v
  let es ← elemsOf h1 v1
  let h2 ← write h1 v1 (es.take n ++ List.replicate (n - es.length) .null)
  let h3 ← drop h2 (es.drop n).reverse
  some (h3, v1, [])

/-- `reserve`, /repo/json.cc:369-371. -/
def reserve (n : Nat) : Change := fun h v => do
  let (h1, v1) ← uniqueify false n h v
  some (h1, v1, [])

/-- `clear`, /repo/json.cc:302-319 and 332-336. -/
def clear : Change := fun h v =>
  match v with
  | .arr (some a) =>
    match get h a with
    | none => none
    | some n =>
      if n.rc = 1 then do
        let h1 ← write h v []
        let h2 ← drop h1 n.elems
        some (h2, v, [])
      else do
        let h1 ← drop h [v]
        some (h1, .arr none, [])
  | .arr none => some (h, v, [])
  | _ => some (h, .null, [])

/-- `get` with indices, /repo/json.hh:2439-2445 and /repo/json.cc:525-530: the element, and
the block that it lies in (none for the value itself and for the null that stands for missing
elements). -/
def getPath (h : Heap) : List Nat → Val → Option Nat → Option (Val × Option Nat)
  | [], v, b => some (v, b)
  | i :: p, v, _ =>
    match v with
    | .arr (some a) =>
      match get h a with
      | none => none
      | some n =>
        match n.elems[i]? with
        | some w => getPath h p w (some a)
        | none => getPath h p .null none
    | _ => getPath h p .null none

/-- Reading a whole value, as `hard_unparse` does (/repo/json.cc:608-678): the elements in
turn, with a bound on the depth. -/
def readAll (h : Heap) : Nat → Val → Option JV
  | _, .null => some .null
  | _, .num i => some (.num i)
  | _, .arr none => some (.arr [])
  | 0, .arr (some _) => none
  | k + 1, .arr (some a) =>
    match get h a with
    | none => none
    | some n => (n.elems.mapM (readAll h k)).map .arr

/-- The variables of a program and the memory. -/
structure State where
  heap : Heap
  vars : List Val
  deriving DecidableEq, Repr

/-- Changes that need no other variable. -/
inductive Edit where
  | num (i : Int)
  | pop
  | erase (first last : Nat)
  | resize (n : Nat)
  | reserve (n : Nat)
  | clear

/-- The change an edit makes. -/
def Edit.run : Edit → Change
  | .num i => setNum i
  | .pop => popBack
  | .erase f l => JsonArr.erase f l
  | .resize n => JsonArr.resize n
  | .reserve n => JsonArr.reserve n
  | .clear => JsonArr.clear

/-- Statements of a program with `Json` variables (numbered). -/
inductive Op where
  /-- `x[p].pop_back()` and so on -/
  | edit (x : Nat) (p : List Nat) (e : Edit)
  /-- `x[p] = y` -/
  | assign (x : Nat) (p : List Nat) (y : Nat)
  /-- `x[p] = std::move(y)` -/
  | move (x : Nat) (p : List Nat) (y : Nat)
  /-- `x[p].push_back(y)`, or `x[p].insert(x[p].abegin() + k, y)` -/
  | insert (x : Nat) (p : List Nat) (k : Option Nat) (y : Nat)
  /-- `y = x[p]` -/
  | read (y x : Nat) (p : List Nat)

/-- The value `y` that `x[p] = y` finds: the element `x[p]` is located first
(/repo/json.hh:1391-1393), which may give `x` a block of its own, and `y` is a reference. -/
def sourceOf (s : State) (x : Nat) (p : List Nat) (y : Nat) : Option (State × Val) :=
  match p with
  | [] => (s.vars[y]?).map fun w => (s, w)
  | i :: _ =>
    if x = y then do
      let (h1, v1) ← getInsert i s.heap (← s.vars[x]?)
      some (⟨h1, s.vars.set x v1⟩, v1)
    else (s.vars[y]?).map fun w => (s, w)

/-- One statement. -/
def step (s : State) : Op → Option State
  | .edit x p e => do
    let (h, v, _) ← modify e.run p s.heap (← s.vars[x]?)
    some ⟨h, s.vars.set x v⟩
  | .assign x p y => do
    let (s1, w) ← sourceOf s x p y
    let (h, v, _) ← modify (assign w) p s1.heap (← s1.vars[x]?)
    some ⟨h, s1.vars.set x v⟩
  | .move x p y => do
    let (h, v, out) ← modify (moveIn (← s.vars[y]?)) p s.heap (← s.vars[x]?)
    some ⟨h, (s.vars.set y (out.headD .null)).set x v⟩
  | .insert x p k y => do
    let w ← s.vars[y]?
    let h1 ← ref s.heap w
    let (h, v, _) ← modify (insertAt k w) p h1 (← s.vars[x]?)
    some ⟨h, s.vars.set x v⟩
  | .read y x p => do
    let (w, b) ← getPath s.heap p (← s.vars[x]?) none
    let h1 ← ref s.heap w
    let h2 ← drop h1 [← s.vars[y]?]
    -- `u_ = x.u_`, /repo/json.hh:2932, reads the element again after the old value is gone
    match b with
    | none => some ⟨h2, s.vars.set y w⟩
    | some a =>
      match get h2 a with
      | none => none
      | some _ => some ⟨h2, s.vars.set y w⟩

/-- `x.insert(x.abegin() + k, x[i])` or `x.push_back(x[i])`. -/
def insertOwnStep (s : State) (x : Nat) (k : Option Nat) (i : Nat) : Option State := do
  let (h, v, _) ← insertOwn k i s.heap (← s.vars[x]?)
  some ⟨h, s.vars.set x v⟩

/-- A program. -/
def run (s : State) : List Op → Option State
  | [] => some s
  | o :: os => do run (← step s o) os

end Verif.JsonArr
