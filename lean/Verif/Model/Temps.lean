import Verif.Model.Api
/-!
# The functions of the manager with their temporary `node_ref` objects

`Model/Mgr.lean` and `Model/Build.lean` leave out the handles a function creates and destroys while it runs: parameters passed by value,
the results of `low()` and `high()`, local variables, elements of local containers. Here the same functions are written with all of them:
every constructor increments `xref`, every destructor asserts `xref > 0` and decrements it, also when an exception leaves the
scope. A function `fooT` gets its by-value parameters from the caller, who destroys them after the call, and returns a node to
which the caller now owns one reference (C++17: a returned prvalue initialises its target directly, so nothing is copied or moved).
-/
namespace LBDD

/-- `node_ref(p)` as a returned object (bdd_node.cpp:264-276). -/
def newRef (p : Nat) : M Mgr Nat := do
  acquire p
  pure p

/-- The scope of an existing handle to `p`: run `m`, then the destructor (bdd_node.cpp:278-285), on return as well as on an exception. -/
def holding {α : Type} (cfg : Cfg) (p : Nat) (m : M Mgr α) : M Mgr α := fun s =>
  match m s with
  | .ok a s' => (do release cfg p; pure a : M Mgr α) s'
  | .throw s' => (do release cfg p; M.throw : M Mgr α) s'
  | .assertFail => .assertFail
  | .ub => .ub
  | .hang => .hang

/-- The scope of a copy of a handle to `p` (bdd_node.cpp:271-285), e.g. a parameter passed by value. -/
def withCopy {α : Type} (cfg : Cfg) (p : Nat) (m : M Mgr α) : M Mgr α := do
  acquire p
  holding cfg p m

/-- Copies of several handles. -/
def withCopies {α : Type} (cfg : Cfg) : List Nat → M Mgr α → M Mgr α
  | [], m => m
  | p :: ps, m => withCopy cfg p (withCopies cfg ps m)

/-- Call of a function with two by-value parameters on existing handles. -/
def call2 {α : Type} (cfg : Cfg) (op : Nat → Nat → M Mgr α) (a b : Nat) : M Mgr α := withCopy cfg a (withCopy cfg b (op a b))

/-- Two handles returned by calls and used as temporaries in one expression; they live until the end of the expression. -/
def args2T {α : Type} (cfg : Cfg) (m1 m2 : M Mgr Nat) (k : Nat → Nat → M Mgr α) : M Mgr α :=
  if cfg.rtl then do
    let b ← m2
    holding cfg b do
      let a ← m1
      holding cfg a (k a b)
  else do
    let a ← m1
    holding cfg a do
      let b ← m2
      holding cfg b (k a b)

/-- Three temporaries. -/
def args3T {α : Type} (cfg : Cfg) (m1 m2 m3 : M Mgr Nat) (k : Nat → Nat → Nat → M Mgr α) : M Mgr α :=
  if cfg.rtl then do
    let c ← m3
    holding cfg c do
      let b ← m2
      holding cfg b do
        let a ← m1
        holding cfg a (k a b c)
  else do
    let a ← m1
    holding cfg a do
      let b ← m2
      holding cfg b do
        let c ← m3
        holding cfg c (k a b c)

/-! ## Boolean operations -/

/-- Common tail of `and_rec`, `or_rec` and `xor_rec` (bdd_mgr.cpp:78-100, 193-215, 236-255). `&v == &f_var ? f.low() : f` initialises the
parameter of the recursive call; `r0` and `r1` live until the end of the function. -/
def meldWith (cfg : Cfg) (tag : Nat) (pick : Nat → Nat → Nat) (rec : Nat → Nat → M Mgr Nat) (f g : Nat) : M Mgr Nat := do
  match ← cacheLookup cfg f g tag with
  | some m => newRef m
  | none => do
    let fv ← varOf f
    let gv ← varOf g
    let v := pick fv gv
    let f0 ← lowIf (v == fv) f
    let g0 ← lowIf (v == gv) g
    let r0 ← call2 cfg rec f0 g0
    holding cfg r0 do
      let f1 ← highIf (v == fv) f
      let g1 ← highIf (v == gv) g
      let r1 ← call2 cfg rec f1 g1
      holding cfg r1 do
        let r ← uniqueFind cfg v r0 r1
        cacheInsert cfg f g tag r
        newRef r

/-- `bdd_mgr::and_rec(node_ref, node_ref)` (bdd_mgr.cpp:61-101). -/
def andRecT (cfg : Cfg) : Nat → Nat → Nat → M Mgr Nat
  | 0, _, _ => M.hang
  | n + 1, f, g =>
    if f = g then newRef f
    else if cfg.addr g < cfg.addr f then call2 cfg (andRecT cfg n) g f
    else if f = topId then newRef g
    else if f = botId then newRef botId
    else if g = topId then newRef f
    else if g = botId then newRef botId
    else meldWith cfg andTag pickMin (andRecT cfg n) f g

/-- `bdd_mgr::or_rec(node_ref, node_ref)` (bdd_mgr.cpp:164-216). -/
def orRecT (cfg : Cfg) : Nat → Nat → Nat → M Mgr Nat
  | 0, _, _ => M.hang
  | n + 1, f, g =>
    if f = g then newRef f
    else if cfg.addr g < cfg.addr f then call2 cfg (orRecT cfg n) g f
    else if f = topId then newRef topId
    else if f = botId then newRef g
    else if g = topId then newRef topId
    else if g = botId then newRef f
    else meldWith cfg orTag pickMin (orRecT cfg n) f g

/-- `bdd_mgr::negate` (bdd_mgr.cpp:41-53): the results of the two inner calls are temporaries of the return statement. -/
def negateRecT (cfg : Cfg) : Nat → Nat → M Mgr Nat
  | 0, _ => M.hang
  | n + 1, p => do
    if ← isBot cfg p then newRef topId
    else if ← isTop cfg p then newRef botId
    else do
      let s ← M.get
      let v := (s.cells p).index
      M.assert cfg.ndebug (v < s.nvars)
      args2T cfg (do let l ← lowOf p; withCopy cfg l (negateRecT cfg n l))
        (do let h ← highOf p; withCopy cfg h (negateRecT cfg n h)) fun a b => do
          let r ← uniqueFind cfg v a b
          newRef r

/-- `mgr.negate(p)` (bdd_mgr.cpp:41-53). -/
def negateOpT (cfg : Cfg) (p : Nat) : M Mgr Nat := do
  let s ← M.get
  negateRecT cfg (fuel1 s) p

/-- `mgr.and_rec(f, g)` (bdd_mgr.cpp:61-101). -/
def andOpT (cfg : Cfg) (f g : Nat) : M Mgr Nat := do
  let s ← M.get
  andRecT cfg (fuel2 s) f g

/-- `mgr.or_rec(f, g)` (bdd_mgr.cpp:164-216). -/
def orOpT (cfg : Cfg) (f g : Nat) : M Mgr Nat := do
  let s ← M.get
  orRecT cfg (fuel2 s) f g

/-- `bdd_mgr::xor_rec(node_ref, node_ref)` (bdd_mgr.cpp:218-256). -/
def xorRecT (cfg : Cfg) : Nat → Nat → Nat → M Mgr Nat
  | 0, _, _ => M.hang
  | n + 1, f, g =>
    if f = g then newRef botId
    else if cfg.addr g < cfg.addr f then call2 cfg (xorRecT cfg n) g f
    else if f = botId then newRef g
    else if g = botId then newRef f
    else if f = topId then withCopy cfg g (negateOpT cfg g)
    else if g = topId then withCopy cfg f (negateOpT cfg f)
    else meldWith cfg xorTag pickMax (xorRecT cfg n) f g

/-- `mgr.xor_rec(f, g)` (bdd_mgr.cpp:218-256). -/
def xorOpT (cfg : Cfg) (f g : Nat) : M Mgr Nat := do
  let s ← M.get
  xorRecT cfg (fuel2 s) f g

/-- Call of `ite_rec` on existing handles. -/
def call3 {α : Type} (cfg : Cfg) (op : Nat → Nat → Nat → M Mgr α) (a b c : Nat) : M Mgr α :=
  withCopy cfg a (withCopy cfg b (withCopy cfg c (op a b c)))

/-- `bdd_mgr::ite_rec` (bdd_mgr.cpp:258-306). -/
def iteRecT (cfg : Cfg) : Nat → Nat → Nat → Nat → M Mgr Nat
  | 0, _, _, _ => M.hang
  | n + 1, f, g, h => do
    if ← isTop cfg f then newRef g
    else if ← isBot cfg f then newRef h
    else if ← (if g = f then pure true else isTop cfg g) then call2 cfg (orOpT cfg) f h
    else if ← (if h = f then pure true else isBot cfg h) then call2 cfg (andOpT cfg) f g
    else if g = h then newRef g
    else if ← (do if ← isBot cfg g then isTop cfg h else pure false) then call2 cfg (xorOpT cfg) topId f
    else match ← cacheLookup cfg f g (cfg.addr h) with
    | some m => newRef m
    | none => do
      let vf ← varOf f
      let vg ← varOrBack cfg g
      let vh ← varOrBack cfg h
      let v := min (min vf vg) vh
      let f0 ← lowIf (vf == v) f
      let g0 ← lowIf (vg == v) g
      let h0 ← lowIf (vh == v) h
      let r0 ← call3 cfg (iteRecT cfg n) f0 g0 h0
      holding cfg r0 do
        let f1 ← highIf (vf == v) f
        let g1 ← highIf (vg == v) g
        let h1 ← highIf (vh == v) h
        let r1 ← call3 cfg (iteRecT cfg n) f1 g1 h1
        holding cfg r1 do
          let r ← uniqueFind cfg v r0 r1
          cacheInsert cfg f g (cfg.addr h) r
          newRef r

/-- `mgr.ite_rec(f, g, h)` (bdd_mgr.cpp:258-306). -/
def iteOpT (cfg : Cfg) (f g h : Nat) : M Mgr Nat := do
  let s ← M.get
  iteRecT cfg (fuel3 s) f g h

/-- `bdd_mgr::projection` (bdd_mgr.cpp:26-33). -/
def projectionT (cfg : Cfg) (v : Nat) : M Mgr Nat := do
  let r ← projection cfg v
  newRef r

/-- `bdd_mgr::unique_find` (bdd_mgr.cpp:55-59). -/
def mgrUniqueFindT (cfg : Cfg) (v l h : Nat) : M Mgr Nat := do
  let r ← mgrUniqueFind cfg v l h
  newRef r

/-- `bdd_mgr::and_rec_limited` (bdd_mgr.cpp:103-162): the returned tuple owns one reference, a null handle none. -/
def andLimRecT (cfg : Cfg) (limit : Nat) : Nat → Nat → Nat → M Mgr (Option (Nat × Nat))
  | 0, _, _ => M.hang
  | n + 1, f, g =>
    if f = g then do
      let k ← nrNodes cfg f
      if limit < k then pure none else do
        let r ← newRef f
        pure (some (r, k))
    else if cfg.addr g < cfg.addr f then call2 cfg (andLimRecT cfg limit n) g f
    else if f = topId then do
      let k ← nrNodes cfg g
      let r ← newRef g
      pure (some (r, k))
    else if f = botId then do
      let r ← newRef botId
      pure (some (r, 0))
    else if g = topId then do
      let k ← nrNodes cfg f
      let r ← newRef f
      pure (some (r, k))
    else if g = botId then do
      let r ← newRef botId
      pure (some (r, 0))
    else do
      match ← cacheLookup cfg f g andTag with
      | some m => do
        let k ← nrNodes cfg m
        if k ≤ limit then do
          let r ← newRef m
          pure (some (r, k))
        else pure none
      | none => do
        let fv ← varOf f
        let gv ← varOf g
        let v := pickMin fv gv
        let f0 ← lowIf (v == fv) f
        let g0 ← lowIf (v == gv) g
        match ← call2 cfg (andLimRecT cfg limit n) f0 g0 with
        | none => pure none
        | some (r0, k0) => holding cfg r0 do
          if limit < k0 then pure none else do
          let f1 ← highIf (v == fv) f
          let g1 ← highIf (v == gv) g
          match ← call2 cfg (andLimRecT cfg limit n) f1 g1 with
          | none => pure none
          | some (r1, k1) => holding cfg r1 do
            if limit < k0 + k1 then pure none else do
            let r ← uniqueFind cfg v r0 r1
            cacheInsert cfg f g andTag r
            let r ← newRef r
            pure (some (r, k0 + k1))

/-- `mgr.and_rec_limited(f, g, limit)` (bdd_mgr.cpp:103-162). -/
def andLimitedT (cfg : Cfg) (f g limit : Nat) : M Mgr (Option (Nat × Nat)) := do
  let s ← M.get
  andLimRecT cfg limit (fuel2 s) f g

/-! ## Ranges and cardinality constraints -/

/-- `and_rec(begin,end)` etc. (include/bdd_mgr.h:164-177, 185-198, 206-219); `a1` and `a2` are local variables, the inner call for three
elements initialises the second parameter of the outer one. -/
def rangeRecT (cfg : Cfg) (op : Nat → Nat → M Mgr Nat) : Nat → List Nat → M Mgr Nat
  | 0, _ => M.hang
  | n + 1, l => do
    M.assert cfg.ndebug (2 ≤ l.length)
    match l with
    | [a, b] => call2 cfg op a b
    | [a, b, c] => do
      let r ← call2 cfg op b c
      holding cfg r (withCopy cfg a (op a r))
    | l => do
      let a1 ← rangeRecT cfg op n (l.take (l.length / 2))
      holding cfg a1 do
        let a2 ← rangeRecT cfg op n (l.drop (l.length / 2))
        holding cfg a2 (call2 cfg op a1 a2)

/-- `or_rec(begin,end)` (include/bdd_mgr.h:185-198). -/
def orRangeT (cfg : Cfg) (l : List Nat) : M Mgr Nat := rangeRecT cfg (orOpT cfg) (l.length + 1) l

/-- The variadic templates (include/bdd_mgr.h:157-162, 179-184, 200-205): `tail...` is copied for the inner call, its result is a local
variable. -/
def variadicT (cfg : Cfg) (op : Nat → Nat → M Mgr Nat) : List Nat → M Mgr Nat
  | [] => M.hang
  | [_] => M.hang
  | [a, b] => op a b
  | a :: l => do
    let t ← withCopies cfg l (variadicT cfg op l)
    holding cfg t (call2 cfg op a t)

/-- `all_false` (include/bdd_mgr.h:247-260). -/
def allFalseRecT (cfg : Cfg) : Nat → List Nat → M Mgr Nat
  | 0, _ => M.hang
  | n + 1, l => do
    M.assert cfg.ndebug (0 < l.length)
    match l with
    | [a] => withCopy cfg a (negateOpT cfg a)
    | [a, b] => args2T cfg (withCopy cfg a (negateOpT cfg a)) (withCopy cfg b (negateOpT cfg b)) (andOpT cfg)
    | l => args2T cfg (allFalseRecT cfg n (l.take (l.length / 2))) (allFalseRecT cfg n (l.drop (l.length / 2))) (andOpT cfg)

/-- `all_false` (include/bdd_mgr.h:247-260). -/
def allFalseT (cfg : Cfg) (l : List Nat) : M Mgr Nat := allFalseRecT cfg (l.length + 1) l

/-- `or_rec(negate(a), negate(b))` as used in `at_most_one` (include/bdd_mgr.h:285-292). -/
def orNegT (cfg : Cfg) (a b : Nat) : M Mgr Nat :=
  args2T cfg (withCopy cfg a (negateOpT cfg a)) (withCopy cfg b (negateOpT cfg b)) (orOpT cfg)

/-- `at_most_one` (include/bdd_mgr.h:278-302). -/
def atMostOneRecT (cfg : Cfg) : Nat → List Nat → M Mgr Nat
  | 0, _ => M.hang
  | n + 1, l => do
    M.assert cfg.ndebug (0 < l.length)
    match l with
    | [_] => newRef topId
    | [a, b] => orNegT cfg a b
    | [a, b, c] => args3T cfg (orNegT cfg a b) (orNegT cfg a c) (orNegT cfg b c) fun x y z => variadicT cfg (andOpT cfg) [x, y, z]
    | l => do
      let a1 ← atMostOneRecT cfg n (l.take (l.length / 2))
      holding cfg a1 do
        let f1 ← allFalseT cfg (l.take (l.length / 2))
        holding cfg f1 do
          let a2 ← atMostOneRecT cfg n (l.drop (l.length / 2))
          holding cfg a2 do
            let f2 ← allFalseT cfg (l.drop (l.length / 2))
            holding cfg f2 (args2T cfg (call2 cfg (andOpT cfg) a1 f2) (call2 cfg (andOpT cfg) a2 f1) (orOpT cfg))

/-- `at_most_one` (include/bdd_mgr.h:278-302). -/
def atMostOneT (cfg : Cfg) (l : List Nat) : M Mgr Nat := atMostOneRecT cfg (l.length + 1) l

/-- `simplex` (include/bdd_mgr.h:262-276). -/
def simplexT (cfg : Cfg) (l : List Nat) : M Mgr Nat := do
  M.assert cfg.ndebug (0 < l.length)
  match l with
  | [a] => newRef a
  | l => do
    let alo ← orRangeT cfg l
    holding cfg alo do
      let amo ← atMostOneT cfg l
      holding cfg amo (call2 cfg (andOpT cfg) alo amo)

/-- `at_least_one` (include/bdd_mgr.h:304-308). -/
def atLeastOneT (cfg : Cfg) (l : List Nat) : M Mgr Nat := do
  let r ← allFalseT cfg l
  holding cfg r (negateOpT cfg r)

/-- A `std::vector<node_ref>` filled by a loop (include/bdd_mgr.h:324-337): the elements live until the vector is destroyed after `k`. The
result of the call is moved into the vector (bdd_node.cpp:287-290), which exchanges it with a null handle. -/
def collectT {α β : Type} (cfg : Cfg) (f : α → M Mgr Nat) : List α → (List Nat → M Mgr β) → M Mgr β
  | [], k => k []
  | a :: l, k => do
    let r ← f a
    holding cfg r (collectT cfg f l fun rs => k (r :: rs))

/-- Common part of `at_least`, `at_most` and `cardinality` (include/bdd_mgr.h:324-339, 358-373, 392-407). -/
def countRecT (cfg : Cfg) (leaf : List Nat → Nat → Option (M Mgr Nat)) : Nat → List Nat → Nat → M Mgr Nat
  | 0, _, _ => M.hang
  | n + 1, l, b => do
    M.assert cfg.ndebug (0 < l.length)
    match leaf l b with
    | some m => m
    | none =>
      collectT cfg (fun i => countRecT cfg leaf n (l.take (l.length / 2)) i) (List.range (b + 1)) fun left =>
      collectT cfg (fun i => countRecT cfg leaf n (l.drop (l.length / 2)) i) (List.range (b + 1)) fun right =>
      collectT cfg (fun p : Nat × Nat => call2 cfg (andOpT cfg) p.1 p.2) (left.zip right.reverse) fun combine =>
      orRangeT cfg combine

/-- Early returns of `at_least` (include/bdd_mgr.h:316-322). -/
def atLeastLeafT (l : List Nat) (b : Nat) : Option (M Mgr Nat) :=
  if l.length < b then some (newRef botId)
  else if l.length = 1 ∧ b = 1 then some (newRef (l.headD 0))
  else if b = 0 then some (newRef topId)
  else none

/-- Early returns of `at_most` (include/bdd_mgr.h:348-356). -/
def atMostLeafT (cfg : Cfg) (l : List Nat) (b : Nat) : Option (M Mgr Nat) :=
  if l.length < b then some (newRef botId)
  else if l.length = 1 ∧ b = 1 then some (newRef topId)
  else if l.length = 1 ∧ b = 0 then some (withCopy cfg (l.headD 0) (negateOpT cfg (l.headD 0)))
  else if b = 0 then some (allFalseT cfg l)
  else none

/-- Early returns of `cardinality` (include/bdd_mgr.h:382-390). -/
def cardLeafT (cfg : Cfg) (l : List Nat) (b : Nat) : Option (M Mgr Nat) :=
  if l.length < b then some (newRef botId)
  else if l.length = 1 ∧ b = 1 then some (newRef (l.headD 0))
  else if l.length = 1 ∧ b = 0 then some (withCopy cfg (l.headD 0) (negateOpT cfg (l.headD 0)))
  else if b = 0 then some (allFalseT cfg l)
  else none

/-! ## Reading a collection -/

/-- `map.insert({key, r})` into an `unordered_map<size_t, node_ref>` (bdd_collection.cpp:359, bdd_mgr.cpp:408-424) and the rest `k` of the
function; `r` is the handle in the pair. If the key is present the pair is destroyed at once, otherwise it lives in the map until the end of the function. -/
def mapInsertT {α : Type} (cfg : Cfg) (h : List (Nat × Nat)) (key r : Nat) (k : List (Nat × Nat) → M Mgr α) : M Mgr α :=
  if (h.lookup key).isSome then do
    release cfg r
    k h
  else holding cfg r (k (insertNew h key r))

/-- Loop and return statement of `export_bdd` (bdd_collection.cpp:332-362): `lo`, `hi` and `bdd` are local to an iteration. -/
def exportLoopT (cfg : Cfg) (c : Coll) (d0 d1 : Nat) : Nat → List (Nat × Nat) → M Mgr Nat
  | 0, h =>
    match h.lookup d0 with
    | some r => newRef r
    | none => do
      M.assert cfg.ndebug false
      M.ub
  | k + 1, h => do
    let e ← insOf c (d0 + k)
    M.assert cfg.ndebug (!e.isTerm)
    let lo ← exportRef cfg c d0 d1 h e.lo
    let r ← withCopy cfg lo do
      let hi ← exportRef cfg c d0 d1 h e.hi
      withCopy cfg hi do
        let r ← call2 cfg (mgrUniqueFindT cfg e.index) lo hi
        holding cfg r do
          M.assert cfg.ndebug (h.lookup (d0 + k)).isNone
          newRef r
    mapInsertT cfg h (d0 + k) r (exportLoopT cfg c d0 d1 k)

/-- `bdd_collection::export_bdd` (bdd_collection.cpp:324-363). -/
def exportBddT (cfg : Cfg) (c : Coll) (nr : Nat) : M Mgr Nat := do
  M.assert cfg.ndebug (decide (nr < c.nrBdds))
  let d1 ← dlmOf c (nr + 1)
  let d0 ← dlmOf c nr
  M.assert cfg.ndebug (decide (2 < d1 - d0))
  M.assert cfg.ndebug ((c.ins[d1 - 2]?).any (·.isTerm))
  M.assert cfg.ndebug ((c.ins[d1 - 1]?).any (·.isTerm))
  exportLoopT cfg c d0 d1 (d1 - 2 - d0) []

/-- Loop and return statement of `bdd_mgr::add_bdd` (bdd_mgr.cpp:402-428): `lo`, `hi` and `node` are local to an iteration; the result of
`projection` initialises the first parameter of `ite_rec`. -/
def importLoopT (cfg : Cfg) (c : Coll) (d0 : Nat) : Nat → List (Nat × Nat) → M Mgr Nat
  | 0, h =>
    match h.lookup d0 with
    | some r => newRef r
    | none => do
      M.assert cfg.ndebug false
      M.ub
  | k + 1, h => do
    let e ← insOf c (d0 + k)
    if e.isBot then do
      let r ← newRef botId
      mapInsertT cfg h (d0 + k) r (importLoopT cfg c d0 k)
    else if e.isTop then do
      let r ← newRef topId
      mapInsertT cfg h (d0 + k) r (importLoopT cfg c d0 k)
    else do
      M.assert cfg.ndebug (decide (d0 + k < 1000))
      match h.lookup e.lo, h.lookup e.hi with
      | some lo, some hi => do
        let r ← withCopy cfg lo (withCopy cfg hi do
          let v ← projectionT cfg e.index
          let r ← holding cfg v (withCopy cfg hi (withCopy cfg lo (iteOpT cfg v hi lo)))
          holding cfg r (newRef r))
        mapInsertT cfg h (d0 + k) r (importLoopT cfg c d0 k)
      | _, _ => do
        M.assert cfg.ndebug false
        M.ub

/-- `bdd_mgr::add_bdd(bdd_col, bdd_nr)` (bdd_mgr.cpp:397-429). -/
def mgrAddBddT (cfg : Cfg) (c : Coll) (nr : Nat) : M Mgr Nat := do
  M.assert cfg.ndebug (decide (nr < c.nrBdds))
  let d0 ← dlmOf c nr
  let d1 ← dlmOf c (nr + 1)
  importLoopT cfg c d0 (d1 - d0) []

/-! ## The API -/

/-- `convert_node_to_node_ref` (bdd_node.cpp:306-320): per node a local handle `n`, and the assignment `node_refs[i] = n` to an element whose
bytes were set to null. -/
def convertRefs (cfg : Cfg) : List Nat → M Mgr Unit
  | [] => pure ()
  | p :: ps => do
    withCopy cfg p (acquire p)
    convertRefs cfg ps

/-- A returned handle, as the list of nodes the caller gets references to. -/
def ret1 (m : M Mgr Nat) : M Mgr (List Nat) := do
  let r ← m
  pure [r]

/-- `Fn.run` with all temporary handles; the caller owns a reference to each element of the result. Functions of `bdd_mgr` take their
operands by value, ranges are iterators, member functions of `node_ref` copy nothing (include/bdd_mgr.h:19-88, include/bdd_node.h:84-131). -/
def Fn.runT (cfg : Cfg) : Fn → List Nat → M Mgr (List Nat)
  | .addVariable, [] => do let _ ← LBDD.addVariable cfg; pure []
  | .botsink, [] => ret1 (newRef botId)
  | .topsink, [] => ret1 (newRef topId)
  | .projection v, [] => ret1 (projectionT cfg v)
  | .negProjection v, [] => ret1 (do let r ← LBDD.negProjection cfg v; newRef r)
  | .uniqueFind v, [l, h] => ret1 (call2 cfg (mgrUniqueFindT cfg v) l h)
  | .negate, [f] => ret1 (withCopy cfg f (negateOpT cfg f))
  | .and, [f, g] => ret1 (call2 cfg (andOpT cfg) f g)
  | .or, [f, g] => ret1 (call2 cfg (orOpT cfg) f g)
  | .xor, [f, g] => ret1 (call2 cfg (xorOpT cfg) f g)
  | .ite, [f, g, h] => ret1 (call3 cfg (iteOpT cfg) f g h)
  | .andRange, l => ret1 (rangeRecT cfg (andOpT cfg) (l.length + 1) l)
  | .orRange, l => ret1 (orRangeT cfg l)
  | .xorRange, l => ret1 (rangeRecT cfg (xorOpT cfg) (l.length + 1) l)
  | .andAll, l => ret1 (withCopies cfg l (variadicT cfg (andOpT cfg) l))
  | .orAll, l => ret1 (withCopies cfg l (variadicT cfg (orOpT cfg) l))
  | .xorAll, l => ret1 (withCopies cfg l (variadicT cfg (xorOpT cfg) l))
  | .allFalse, l => ret1 (allFalseT cfg l)
  | .atMostOne, l => ret1 (atMostOneT cfg l)
  | .atLeastOne, l => ret1 (atLeastOneT cfg l)
  | .simplex, l => ret1 (simplexT cfg l)
  | .atLeast b, l => ret1 (countRecT cfg atLeastLeafT (l.length + 1) l b)
  | .atMost b, l => ret1 (countRecT cfg (atMostLeafT cfg) (l.length + 1) l b)
  | .cardinality b, l => ret1 (countRecT cfg (cardLeafT cfg) (l.length + 1) l b)
  | .rebaseMap m, [f] => ret1 (withCopy cfg f (do let r ← LBDD.rebaseMap cfg f m; newRef r))
  | .rebaseVec m, [f] => ret1 (withCopy cfg f (do let r ← LBDD.rebaseVec cfg f m; newRef r))
  | .andLimited n, [f, g] => do
    match ← call2 cfg (fun f g => andLimitedT cfg f g n) f g with
    | some (r, _) => pure [r]
    | none => pure []
  | .nrNodes, [f] => do let _ ← LBDD.nrNodes cfg f; pure []
  | .nodesPostorder, [f] => do let l ← LBDD.nodesPostorder cfg f; convertRefs cfg l; pure l
  | .nodesBfs, [f] => do let l ← LBDD.nodesBfs cfg f; convertRefs cfg l; pure l
  | .variables, [f] => do let _ ← LBDD.variables cfg f; pure []
  | .exactlyOneSolution, [f] => do let _ ← LBDD.exactlyOneSolution cfg f; pure []
  | .print, [f] => do let _ ← printArcs cfg f; pure []
  | .low, [f] => ret1 (do let r ← lowOf f; newRef r)
  | .high, [f] => ret1 (do let r ← highOf f; newRef r)
  | .refBotsink, [f] => ret1 (do let _ ← findBddMgr cfg f; newRef botId)
  | .refTopsink, [f] => ret1 (do let _ ← findBddMgr cfg f; newRef topId)
  | .exportBdd c nr, [] => ret1 (exportBddT cfg c nr)
  | .importBdd c nr, [] => ret1 (mgrAddBddT cfg c nr)
  | _, _ => M.ub

/-- `step` with all temporary handles: the returned objects become the user's handles, nothing is counted twice. -/
def stepT (cfg : Cfg) : Op → M Api Unit
  | .call f is => do
    let a ← M.get
    match a.args is with
    | none => M.ub
    | some ps => do
      let rs ← onMgr (f.runT cfg ps)
      M.modify fun a => { a with hs := a.hs ++ rs.map some }
  | o => step cfg o

/-- The operators `&`, `||`, `^` and `!` (include/bdd_mgr.h:221-244), for `f` one of `and_rec`, `or_rec`, `xor_rec`, `negate`: operands by value,
the manager is found through the first one, and the operands are copied again for the call. -/
def operatorT (cfg : Cfg) (f : Fn) (l : List Nat) : M Mgr (List Nat) :=
  withCopies cfg l do
    let _ ← findBddMgr cfg (l.headD 0)
    f.runT cfg l

end LBDD
