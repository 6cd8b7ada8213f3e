import Mathlib.Algebra.Order.Field.Rat

/-!
# Model of the sparse tableau (tableau.hh, tableau.cc)

`Integer` is `Int`, `Rational` is `Rat` (exact arithmetic of FLINT/IMath is trusted).
A `std::vector` indexed by row/column is a total function together with a size; rows and columns beyond the
size hold the default value, which is exactly what `reserve_row_`/`reserve_col_` create on demand
(tableau.cc:215-226).
-/

namespace Lpx

/-- tableau.hh:123-133 `Tableau::Cell`. -/
structure Cell where
  col : Nat
  val : Int
deriving DecidableEq, Repr

/-- tableau.hh:134-137 `Tableau::Row`: a common denominator and the numerators sorted by column. -/
structure Row where
  den : Int := 1
  cells : List Cell := []
deriving DecidableEq, Repr

/-- tableau.hh:29,143-144 `class Tableau`: `rows_` and `cols_` with their sizes. -/
structure Tableau where
  rows : Nat → Row
  nrows : Nat
  cols : Nat → List Nat
  ncols : Nat

namespace Tableau

/-- A default constructed tableau (also tableau.cc:210-213 `clear`). -/
def empty : Tableau := { rows := fun _ => {}, nrows := 0, cols := fun _ => [], ncols := 0 }

/-- `std::lower_bound(cells, j)` followed by the test `it != end && it->col == j`
(tableau.cc:10-11, 32-33, 39-41; tableau.hh:79-80). `lower_bound` on a sorted row is the first cell whose
column is not smaller than `j`. -/
def findCell : List Cell → Nat → Option Int
  | [], _ => none
  | c :: cs, j => if c.col < j then findCell cs j else if c.col = j then some c.val else none

/-- tableau.cc:7-16 `Tableau::get`; `Rational{num, den}` canonicalises (number_flint.hh:470-474). -/
def get (t : Tableau) (i j : Nat) : Rat :=
  if i < t.nrows then
    match findCell (t.rows i).cells j with
    | some v => (v : Rat) / ((t.rows i).den : Rat)
    | none => 0
  else 0

/-- tableau.cc:32-35: erase the cell of column `j` if present. -/
def eraseCell : List Cell → Nat → List Cell
  | [], _ => []
  | c :: cs, j => if c.col < j then c :: eraseCell cs j else if c.col = j then cs else c :: cs

/-- tableau.cc:39-55: insert or overwrite the cell of column `j` by `v` and multiply all other cells by `ag`.
(The code skips the multiplication if `ag = 1`, which has the same effect.) -/
def putCell (ag : Int) (v : Int) : List Cell → Nat → List Cell
  | [], j => [⟨j, v⟩]
  | c :: cs, j =>
    if c.col < j then ⟨c.col, c.val * ag⟩ :: putCell ag v cs j
    else if c.col = j then ⟨j, v⟩ :: cs.map (fun e => ⟨e.col, e.val * ag⟩)
    else ⟨j, v⟩ :: (c :: cs).map (fun e => ⟨e.col, e.val * ag⟩)

/-- tableau.cc:57-60: insert `i` into the sorted column unless it is already there. -/
def insertIdx : List Nat → Nat → List Nat
  | [], i => [i]
  | k :: ks, i => if k < i then k :: insertIdx ks i else if k = i then k :: ks else i :: k :: ks

/-- tableau.cc:25-62 `Tableau::set`. -/
def set (t : Tableau) (i j : Nat) (a : Rat) : Tableau :=
  if a = 0 then
    if i < t.nrows then
      { t with rows := Function.update t.rows i { t.rows i with cells := eraseCell (t.rows i).cells j } }
    else t
  else
    let r := t.rows i
    -- tableau.cc:40 `auto [g, ag, rg] = gcd_div(a.den(), r.den)`
    let g : Int := Int.gcd (a.den : Int) r.den
    let ag : Int := (a.den : Int) / g
    let rg : Int := r.den / g
    let cells := putCell ag (a.num * rg) r.cells j
    { rows := Function.update t.rows i { den := r.den * ag, cells := cells }
      nrows := max t.nrows (i + 1)
      cols := Function.update t.cols j (insertIdx (t.cols j) i)
      ncols := max t.ncols (j + 1) }

/-- tableau.hh:57-64 `update_row`: the calls `f(j, a_ij, d_i)` in order. -/
def rowEntries (t : Tableau) (i : Nat) : List (Nat × Int × Int) :=
  (t.rows i).cells.map fun c => (c.col, c.val, (t.rows i).den)

/-- tableau.hh:71-90 `update_col`: the calls `f(i, a_ij, d_i)` in order (for callbacks that do not change the
tableau, which is the case for all callbacks in solving.cc). -/
def colEntries (t : Tableau) (j : Nat) : List (Nat × Int × Int) :=
  (t.cols j).filterMap fun i => (findCell (t.rows i).cells j).map fun a => (i, a, (t.rows i).den)

/-- tableau.hh:74-88: the lazily deleted indices of column `j` are removed by `update_col`
(swapping kept indices to the front keeps their order). -/
def compactCol (t : Tableau) (j : Nat) : Tableau :=
  let col := (t.cols j).filter fun i => (findCell (t.rows i).cells j).isSome
  { t with cols := Function.update t.cols j col }

/-- tableau.cc:71-76: running gcd with early exit; returns `none` for the early `return`. -/
def gcdCells : Int → List Cell → Option Int
  | g, [] => some g
  | g, c :: cs =>
    let g' : Int := Int.gcd c.val g
    if g' = 1 then none else gcdCells g' cs

/-- tableau.cc:65-82 `simplify_` on a single row (`divide` is exact division). -/
def simplifyRow (r : Row) : Row :=
  if r.den = 1 then r
  else
    match gcdCells r.den r.cells with
    | none => r
    | some g => { den := r.den / g, cells := r.cells.map fun c => ⟨c.col, c.val / g⟩ }

/-- tableau.cc:94-99: negate the cells of row `i` except for column `j`. -/
def negRow (j : Nat) (cells : List Cell) : List Cell :=
  cells.map fun c => if c.col ≠ j then ⟨c.col, -c.val⟩ else c

/-- tableau.cc:106-145: the merge loop for one row `k`. First list: (negated) row `i`, second list: row `k`.
`p` is the final value `ga_kj * d_i` of the pivot cell (tableau.cc:136-137,145: the code stores 0 first and
overwrites it after the loop). Returns the new cells and the columns for which `cols_[col].emplace_back(k)` and
`++sizes[..]` are executed. -/
def mergeRow (gaij gakj p : Int) (j : Nat) : List Cell → List Cell → List Cell × List Nat
  | [], [] => ([], [])
  | c :: cs, [] =>
    let r := mergeRow gaij gakj p j cs []
    (⟨c.col, gakj * c.val⟩ :: r.1, c.col :: r.2)
  | [], e :: es =>
    let r := mergeRow gaij gakj p j [] es
    (⟨e.col, e.val * gaij⟩ :: r.1, r.2)
  | c :: cs, e :: es =>
    if c.col < e.col then
      let r := mergeRow gaij gakj p j cs (e :: es)
      (⟨c.col, gakj * c.val⟩ :: r.1, c.col :: r.2)
    else if e.col < c.col then
      let r := mergeRow gaij gakj p j (c :: cs) es
      (⟨e.col, e.val * gaij⟩ :: r.1, r.2)
    else
      let r := mergeRow gaij gakj p j cs es
      if e.col ≠ j then
        let v := e.val * gaij + gakj * c.val
        if v = 0 then (r.1, r.2) else (⟨e.col, v⟩ :: r.1, r.2)
      else (⟨e.col, p⟩ :: r.1, r.2)
termination_by cs es => cs.length + es.length

/-- State of the loop in tableau.cc:103-150. -/
structure PivotSt where
  rows : Nat → Row
  cols : Nat → List Nat
  /-- `sizes` (tableau.cc:89-90), indexed by column instead of by position in row `i`. -/
  sizes : Nat → Nat
  /-- kept indices of column `j` (tableau.hh:74-88). -/
  kept : List Nat

/-- tableau.cc:114-115: `cols_[A_il->col].emplace_back(k); ++sizes[..]` for all inserted columns. -/
def pushCols (k : Nat) (ins : List Nat) (st : PivotSt) : PivotSt :=
  ins.foldl (fun st l =>
    { st with cols := Function.update st.cols l (st.cols l ++ [k])
              sizes := Function.update st.sizes l (st.sizes l + 1) }) st

/-- tableau.cc:103-150: one step of `update_col(j, ...)` for row index `k` of column `j`. -/
def pivotStep (i j : Nat) (aij di : Int) (st : PivotSt) (k : Nat) : PivotSt :=
  match findCell (st.rows k).cells j with
  | none => st
  | some akj =>
    let st := { st with kept := st.kept ++ [k] }
    if k = i then st
    else
      -- tableau.cc:105
      let g : Int := Int.gcd aij akj
      let gaij := aij / g
      let gakj := akj / g
      let m := mergeRow gaij gakj (gakj * di) j (st.rows i).cells (st.rows k).cells
      let st := pushCols k m.2 st
      let rk := simplifyRow { den := (st.rows k).den * gaij, cells := m.1 }
      { st with rows := Function.update st.rows k rk }

/-- `std::set_union` of two sorted ranges (tableau.cc:178). -/
def setUnion : List Nat → List Nat → List Nat
  | [], bs => bs
  | as, [] => as
  | a :: as, b :: bs =>
    if a < b then a :: setUnion as (b :: bs)
    else if b < a then b :: setUnion (a :: as) bs
    else a :: setUnion as bs
termination_by as bs => as.length + bs.length

/-- tableau.cc:160-182: restore the order of a column after `n` indices have been appended. -/
def fixCol (col : List Nat) (n : Nat) : List Nat :=
  if n = 0 then col
  else if n = 1 then
    match col.getLast? with
    | some k => insertIdx col.dropLast k
    | none => col
  else setUnion (col.take (col.length - n)) (col.drop (col.length - n))

/-- tableau.cc:151-153: swap the pivot cell with the denominator of row `i`, then simplify. -/
def swapRow (j : Nat) (aij di : Int) (r : Row) : Row :=
  simplifyRow { den := aij, cells := r.cells.map fun c => if c.col = j then ⟨c.col, di⟩ else c }

/-- tableau.cc:84-183 `Tableau::pivot`; `a_ij` and `d_i` are references to the pivot cell and the denominator of
row `i` (all callers pass what `unsafe_get(i, j)` returned, solving.cc:932,957). -/
def pivot (t : Tableau) (i j : Nat) : Tableau :=
  let aij := (findCell (t.rows i).cells j).getD 0
  let di := (t.rows i).den
  let rows1 := Function.update t.rows i { t.rows i with cells := negRow j (t.rows i).cells }
  let st := (t.cols j).foldl (pivotStep i j aij di)
    { rows := rows1, cols := t.cols, sizes := fun _ => 0, kept := [] }
  let ri := st.rows i
  { rows := Function.update st.rows i (swapRow j aij di ri)
    nrows := t.nrows
    cols := ri.cells.foldl (fun cols c => Function.update cols c.col (fixCol (cols c.col) (st.sizes c.col)))
      (Function.update st.cols j st.kept)
    ncols := t.ncols }

/-- tableau.cc:201-204 `size`. -/
def size (t : Tableau) : Nat := ((List.range t.nrows).map fun i => (t.rows i).cells.length).sum

/-- tableau.cc:206-208 `empty`. -/
def isEmpty (t : Tableau) : Bool := (List.range t.nrows).all fun i => (t.rows i).cells.isEmpty

end Tableau
end Lpx
