import Verif.Spec.Heap
import Verif.Spec.Coll
/-!
# Reading a drawing

Small parsers for the two graph formats the library writes. They are written from the format alone (lines ended by a newline, decimal numbers, quoted
names) and say what a reader of the text gets to know.
-/
namespace LBDD

/-- The lines of a text, without the newline characters. -/
def textLines : List Char → List (List Char)
  | [] => []
  | c :: cs =>
    if c = '\n' then [] :: textLines cs
    else match textLines cs with
      | [] => [[c]]
      | l :: ls => (c :: l) :: ls

/-- Read a decimal number: all leading digits, at least one. -/
def readNat (s : List Char) : Option (Nat × List Char) :=
  if (s.takeWhile Char.isDigit).isEmpty then none
  else some (Nat.ofDigitChars 10 (s.takeWhile Char.isDigit) 0, s.dropWhile Char.isDigit)

/-- Read the given characters. -/
def readLit (w : String) (s : List Char) : Option (List Char) :=
  if w.toList.isPrefixOf s then some (s.drop w.toList.length) else none

/-! ## The format of `print` -/

/-- A node of a drawing made by `print`: a sink, or an inner node given by its variable and its address. -/
inductive DotId where
  | bot
  | top
  | node (var addr : Nat)
  deriving DecidableEq

/-- Read `bot`, `top` or `"variable,address"`. -/
def readId (s : List Char) : Option (DotId × List Char) :=
  match readLit "bot" s with
  | some r => some (.bot, r)
  | none =>
    match readLit "top" s with
    | some r => some (.top, r)
    | none => do
      let s1 ← readLit "\"" s
      let (v, s2) ← readNat s1
      let s3 ← readLit "," s2
      let (a, s4) ← readNat s3
      let s5 ← readLit "\"" s4
      some (.node v a, s5)

/-- Read `from -> to [label="0"]` or `from -> to [label="1"]`. -/
def readArc (s : List Char) : Option (DotId × Bool × DotId) := do
  let (i, s1) ← readId s
  let s2 ← readLit " -> " s1
  let (j, s3) ← readId s2
  if s3 = " [label=\"0\"]".toList then some (i, false, j)
  else if s3 = " [label=\"1\"]".toList then some (i, true, j)
  else none

/-- Read a whole drawing: `digraph BDD {`, one line per arc, `}`. -/
def readDrawing (t : List Char) : Option (List (DotId × Bool × DotId)) :=
  match textLines t with
  | [] => none
  | h :: ls =>
    if h = "digraph BDD {".toList ∧ ls.getLast? = some "}".toList then ls.dropLast.mapM readArc else none

/-- Following the arcs of a drawing from node `i` under the assignment `x` ends in the sink for `r`. -/
inductive DotReads (arcs : List (DotId × Bool × DotId)) (x : List Bool) : DotId → Bool → Prop
  | bot : DotReads arcs x .bot false
  | top : DotReads arcs x .top true
  | node {v a : Nat} {b r : Bool} {j : DotId} : x[v]? = some b → (DotId.node v a, b, j) ∈ arcs → DotReads arcs x j r →
      DotReads arcs x (.node v a) r

/-- The name of pool position `p` in a drawing. -/
def dotId (cfg : Cfg) (s : Mgr) (p : Nat) : DotId :=
  if p = botId then .bot else if p = topId then .top else .node (s.cells p).index (cfg.addr p)

/-! ## The format of `export_graphviz` -/

/-- The label of a node in a drawing made by `export_graphviz`. -/
inductive GvLabel where
  | bot
  | top
  | var (v : Nat)
  deriving DecidableEq

/-- Read a node: `number [label="bot"];`, `number [label="top"];` or `number [label="variable"];`. -/
def readGvLabel (s : List Char) : Option (Nat × GvLabel) := do
  let (n, s1) ← readNat s
  let s2 ← readLit " [label=\"" s1
  if s2 = "top\"];".toList then some (n, .top)
  else if s2 = "bot\"];".toList then some (n, .bot)
  else do
    let (v, s3) ← readNat s2
    if s3 = "\"];".toList then some (n, .var v) else none

/-- Read a visible arc: `from -> to;` (taken when the variable is true) or `from -> to[style="dashed"];` (when it is false). -/
def readGvArc (s : List Char) : Option (Nat × Bool × Nat) := do
  let (n, s1) ← readNat s
  let s2 ← readLit " -> " s1
  let (m, s3) ← readNat s2
  if s3 = ";".toList then some (n, true, m)
  else if s3 = "[style=\"dashed\"];".toList then some (n, false, m)
  else none

/-- The nodes of a drawing. -/
def gvNodes (t : List Char) : List (Nat × GvLabel) := (textLines t).filterMap readGvLabel
/-- The visible arcs of a drawing. -/
def gvLinks (t : List Char) : List (Nat × Bool × Nat) := (textLines t).filterMap readGvArc

/-- Following the visible arcs of the drawing `t` from node `i` under the assignment `x` ends in the sink for `r`. -/
inductive GvReads (t : List Char) (x : List Bool) : Nat → Bool → Prop
  | bot {i : Nat} : (i, GvLabel.bot) ∈ gvNodes t → GvReads t x i false
  | top {i : Nat} : (i, GvLabel.top) ∈ gvNodes t → GvReads t x i true
  | node {i v j : Nat} {b r : Bool} : (i, GvLabel.var v) ∈ gvNodes t → x[v]? = some b → (i, b, j) ∈ gvLinks t → GvReads t x j r →
      GvReads t x i r

/-- The label an instruction of a collection should get. -/
def Instr.label (e : Instr) : GvLabel := if e.index = cBot then .bot else if e.index = cTop then .top else .var e.index

end LBDD
