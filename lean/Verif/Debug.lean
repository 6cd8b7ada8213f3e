import Verif.Asserts

/-!
# Model of a build with assertions

The functions ending in `D` are the functions of the solver compiled without `NDEBUG`: they contain the assertions at the places where the code has them
and stop with `Abort.assertion` at the first one that fails. The parameter `extra` tells if the macro `CLINGOLPX_CROSSCHECK` is defined (util.hh:7-11).
The lemmas `..D_eq` show that they compute what the functions without assertions compute if all assertions listed in Asserts.lean hold, and abort otherwise.
-/

set_option linter.unusedSectionVars false

namespace Lpx

/-- Why a function of a build with assertions yields no result. Builds with assertions of solving.cc, tableau.cc and util.hh. -/
inductive Abort where
  /-- an assertion failed: the process is aborted -/
  | assertion
  /-- the bound on the number of iterations considered was reached (or there is no such thread) -/
  | noResult
deriving DecidableEq, Repr

/-- The result of a function of a build with assertions. Builds with assertions of solving.cc, tableau.cc and util.hh. -/
abbrev D := Except Abort

/-- `assert(b)`. `assert` and `assert_extra`, util.hh:7-11. -/
def assertD (b : Bool) : D Unit := if b then .ok () else .error .assertion
/-- util.hh:7-11 `assert_extra(b)`. -/
def assertExtraD (extra b : Bool) : D Unit := if extra then assertD b else .ok ()
/-- A result that may be missing. Not part of the code. -/
def ofOption {α : Type} : Option α → D α
  | none => .error .noResult
  | some x => .ok x

/-- `x`, provided that the assertions `b` hold. Not part of the code. -/
def guardD {α : Type} (b : Bool) (x : D α) : D α := if b then x else .error .assertion

section
variable {α β σ : Type}

theorem assertD_eq (b : Bool) : assertD b = guardD b (pure ()) := rfl
theorem assertExtraD_eq (extra b : Bool) : assertExtraD extra b = guardD (assertExtra extra b) (pure ()) := by
  cases extra <;> cases b <;> rfl
theorem guardD_true (x : D α) : guardD true x = x := rfl
theorem guardD_false (x : D α) : guardD false x = .error .assertion := rfl
theorem ok_eq (x : α) : (Except.ok x : D α) = pure x := rfl
theorem guardD_bind (b : Bool) (x : D α) (f : α → D β) : (guardD b x >>= f) = guardD b (x >>= f) := by cases b <;> rfl
theorem guardD_guardD (a b : Bool) (x : D α) : guardD a (guardD b x) = guardD (a && b) x := by cases a <;> rfl
theorem guardD_congr {a : Bool} {x y : D α} (h : a = true → x = y) : guardD a x = guardD a y := by
  cases a with
  | false => rfl
  | true => exact h rfl
theorem guardD_congr' {a b : Bool} {x y : D α} (hab : a = b) (h : a = true → x = y) : guardD a x = guardD b y := by
  rw [← hab]; exact guardD_congr h
theorem pure_bindD (x : α) (f : α → D β) : ((pure x : D α) >>= f) = f x := rfl
theorem ite_guardD (c : Prop) [Decidable c] (a b : Bool) (x y : D α) :
    (if c then guardD a x else guardD b y) = guardD (if c then a else b) (if c then x else y) := by split <;> rfl
theorem guardD_true' (x : D α) : x = guardD true x := rfl

/-- A loop whose body asserts something that the body does not change. -/
theorem foldlM_guard {f : σ → α → D σ} {g : σ → α → σ} {c : α → Bool} (P : σ → Prop) (hf : ∀ s e, P s → f s e = guardD (c e) (pure (g s e)))
    (hg : ∀ s e, P s → P (g s e)) : ∀ (l : List α) (s : σ), P s → l.foldlM f s = guardD (l.all c) (pure (l.foldl g s))
  | [], s, _ => rfl
  | e :: l, s, h => by
    rw [List.foldlM_cons, hf s e h, guardD_bind, pure_bindD, foldlM_guard P hf hg l _ (hg s e h), guardD_guardD]
    rfl

end

/-- parsing.cc:133-164 the loop of `unquote` with the assertion in line 152; `slash` tells if the last character was a backslash. -/
def unquoteLoopD : Bool → List Char → D (List Char)
  | _, [] => pure []
  | true, c :: cs => do
    let w ← if c = 'n' then pure ['\n'] else if c = '\\' then pure ['\\'] else if c = '"' then pure ['"'] else .error .assertion
    let r ← unquoteLoopD false cs
    pure (w ++ r)
  | false, c :: cs =>
    if c = '\\' then unquoteLoopD true cs
    else do
      let r ← unquoteLoopD false cs
      pure (c :: r)

/-- parsing.cc:133-164 `unquote` with the assertion in line 152. -/
def unquoteD (s : List Char) : D (List Char) := unquoteLoopD false s

/-- Without failing assertions the result is that of `unquote`. -/
theorem unquoteD_ok (w : List Char) : ∀ r, unquoteD w = .ok r → r = unquote w := by
  unfold unquoteD
  fun_induction unquote w with
  | case1 => intro r h; cases h; rfl
  | case2 cs ih | case3 cs ih | case4 cs ih =>
    intro r h
    rw [unquoteLoopD, if_pos rfl, unquoteLoopD] at h
    simp only [if_pos, reduceCtorEq, Char.reduceEq, if_false, if_true, pure_bind] at h
    cases hr : unquoteLoopD false cs with
    | error e => rw [hr] at h; cases h
    | ok r' => rw [hr] at h; cases h; rw [ih r' hr]; rfl
  | case5 => intro r h; cases h; rfl
  | case6 c cs h1 h2 h3 ih =>
    intro r h
    rw [unquoteLoopD, if_pos rfl, unquoteLoopD, if_neg, if_neg, if_neg] at h
    · cases h
    all_goals (intro hc; subst hc; simp_all)
  | case7 c cs h1 h2 h3 h4 h5 ih =>
    intro r h
    have hc : c ≠ '\\' := by
      intro hc; subst hc
      cases cs with
      | nil => simp_all
      | cons d ds => simp_all
    rw [unquoteLoopD, if_neg hc] at h
    cases hr : unquoteLoopD false cs with
    | error e => rw [hr] at h; cases h
    | ok r' => rw [hr] at h; cases h; rw [ih r' hr]

namespace Tableau

/-- tableau.cc:106-145 the merge loop for one row with the assertions in lines 111 and 120. -/
def mergeRowD (gaij gakj p : Int) (j : Nat) : List Cell → List Cell → D (List Cell × List Nat)
  | [], [] => pure ([], [])
  | c :: cs, [] => do
    assertD (decide (c.col ≠ j))
    let r ← mergeRowD gaij gakj p j cs []
    pure (⟨c.col, gakj * c.val⟩ :: r.1, c.col :: r.2)
  | [], e :: es => do
    assertD (decide (e.col ≠ j))
    let r ← mergeRowD gaij gakj p j [] es
    pure (⟨e.col, e.val * gaij⟩ :: r.1, r.2)
  | c :: cs, e :: es =>
    if c.col < e.col then do
      assertD (decide (c.col ≠ j))
      let r ← mergeRowD gaij gakj p j cs (e :: es)
      pure (⟨c.col, gakj * c.val⟩ :: r.1, c.col :: r.2)
    else if e.col < c.col then do
      assertD (decide (e.col ≠ j))
      let r ← mergeRowD gaij gakj p j (c :: cs) es
      pure (⟨e.col, e.val * gaij⟩ :: r.1, r.2)
    else do
      let r ← mergeRowD gaij gakj p j cs es
      if e.col ≠ j then
        let v := e.val * gaij + gakj * c.val
        if v = 0 then pure (r.1, r.2) else pure (⟨e.col, v⟩ :: r.1, r.2)
      else pure (⟨e.col, p⟩ :: r.1, r.2)
termination_by cs es => cs.length + es.length

theorem mergeRowD_eq (gaij gakj p : Int) (j : Nat) (cs es : List Cell) :
    mergeRowD gaij gakj p j cs es = guardD (mergeAsserts j cs es) (pure (mergeRow gaij gakj p j cs es)) := by
  fun_induction mergeRow gaij gakj p j cs es <;> rw [mergeRowD, mergeAsserts] <;>
    first
    | rfl
    | (rename_i h ih; simp only [ih, guardD_bind, pure_bindD, if_pos h, *]; rfl)
    | (rename_i h1 h2 ih; simp only [ih, guardD_bind, pure_bindD, *, ite_not, if_false]; first | rw [if_pos h2] | rw [if_neg h2])
    | (simp_all only [assertD_eq, guardD_bind, pure_bindD, guardD_guardD, if_true, if_false, ne_eq, not_true_eq_false, not_false_eq_true, not_not] <;> rfl)

/-- tableau.cc:103-150: one step of `update_col(j, ...)` with assertions. -/
def pivotStepD (i j : Nat) (aij di : Int) (st : PivotSt) (k : Nat) : D PivotSt :=
  match findCell (st.rows k).cells j with
  | none => pure st
  | some akj => do
    let st := { st with kept := st.kept ++ [k] }
    if k = i then pure st
    else
      let g : Int := Int.gcd aij akj
      let gaij := aij / g
      let gakj := akj / g
      let m ← mergeRowD gaij gakj (gakj * di) j (st.rows i).cells (st.rows k).cells
      let st := pushCols k m.2 st
      let rk := simplifyRow { den := (st.rows k).den * gaij, cells := m.1 }
      pure { st with rows := Function.update st.rows k rk }

theorem pivotStepD_eq (i j : Nat) (aij di : Int) (st : PivotSt) (k : Nat) :
    pivotStepD i j aij di st k = guardD (pivotStepAsserts i j st k) (pure (pivotStep i j aij di st k)) := by
  unfold pivotStepD pivotStepAsserts pivotStep
  cases findCell (st.rows k).cells j with
  | none => rfl
  | some a =>
    by_cases hk : k = i
    · simp only [hk, if_true]; rfl
    · simp only [hk, if_false, mergeRowD_eq, guardD_bind, pure_bindD]

theorem pivotLoopD_eq (i j : Nat) (aij di : Int) : ∀ (ks : List Nat) (st : PivotSt),
    ks.foldlM (pivotStepD i j aij di) st = guardD (pivotLoopAsserts i j aij di ks st) (pure (ks.foldl (pivotStep i j aij di) st))
  | [], _ => rfl
  | k :: ks, st => by
    rw [List.foldlM_cons, pivotStepD_eq, guardD_bind, pure_bindD, pivotLoopD_eq i j aij di ks, guardD_guardD]
    rfl

/-- tableau.cc:84-183 `Tableau::pivot` with assertions. -/
def pivotD (t : Tableau) (i j : Nat) : D Tableau := do
  let aij := (findCell (t.rows i).cells j).getD 0
  let di := (t.rows i).den
  let rows1 := Function.update t.rows i { t.rows i with cells := negRow j (t.rows i).cells }
  let st ← (t.cols j).foldlM (pivotStepD i j aij di) { rows := rows1, cols := t.cols, sizes := fun _ => 0, kept := [] }
  let ri := st.rows i
  pure { rows := Function.update st.rows i (swapRow j aij di ri)
         nrows := t.nrows
         cols := ri.cells.foldl (fun cols c => Function.update cols c.col (fixCol (cols c.col) (st.sizes c.col)))
           (Function.update st.cols j st.kept)
         ncols := t.ncols }

theorem pivotD_eq (t : Tableau) (i j : Nat) : t.pivotD i j = guardD (t.pivotAsserts i j) (pure (t.pivot i j)) := by
  unfold pivotD pivotAsserts pivot
  simp only [pivotLoopD_eq, guardD_bind, pure_bindD]

end Tableau

namespace S
variable {V : Type} [LpValue V]

/-- solving.cc:244-247 `basic_`: the variable of row `i`. -/
def basicD (s : S V) (i : Nat) : D Nat := do
  assertD (decide (i < s.m))
  pure (s.index (i + s.n))

/-- solving.cc:249-252 `non_basic_`: the variable of column `j`. -/
def nonBasicD (s : S V) (j : Nat) : D Nat := do
  assertD (decide (j < s.n))
  pure (s.index j)

/-- solving.cc:254-267 `enqueue_`. -/
def enqueueD (s : S V) (i : Nat) : D (S V) := do
  assertD (decide (i < s.m))
  let ii := s.index (i + s.n)
  let s :=
    if !s.queued ii && s.hasConflict ii then
      { s with conflicts := heapInsert ii s.conflicts, queued := Function.update s.queued ii true }
    else s
  if s.opts.propagateMode = .changed && !s.prop i then
    pure { s with prop := Function.update s.prop i true, pqueue := s.pqueue ++ [i] }
  else pure s

theorem basicD_eq (s : S V) (i : Nat) : s.basicD i = guardD (decide (i < s.m)) (pure (s.index (i + s.n))) := by
  unfold basicD; rw [assertD_eq, guardD_bind, pure_bindD]
theorem nonBasicD_eq (s : S V) (j : Nat) : s.nonBasicD j = guardD (decide (j < s.n)) (pure (s.index j)) := by
  unfold nonBasicD; rw [assertD_eq, guardD_bind, pure_bindD]
theorem enqueueD_eq (s : S V) (i : Nat) : s.enqueueD i = guardD (decide (i < s.m)) (pure (s.enqueue i)) := by
  unfold enqueueD enqueue
  rw [assertD_eq, guardD_bind, pure_bindD]
  simp only
  congr 1
  split <;> split <;> rfl

theorem enqueue_nm (s : S V) (i : Nat) : (s.enqueue i).n = s.n ∧ (s.enqueue i).m = s.m := by
  unfold enqueue; simp only; split <;> split <;> exact ⟨rfl, rfl⟩
theorem setValue_nm (s : S V) (l v : Nat) (x : V) (a : Bool) : (s.setValue l v x a).n = s.n ∧ (s.setValue l v x a).m = s.m := by
  unfold setValue; simp only; split <;> exact ⟨rfl, rfl⟩

/-- solving.cc:920-927 `update_` with assertions. -/
def updateD (s : S V) (lvl j : Nat) (v : V) : D (S V) := do
  let xj ← s.nonBasicD j
  let s ← (s.tab.colEntries j).foldlM (fun s (e : Nat × Int × Int) => do
    let xi ← s.basicD e.1
    let s := s.setValue lvl xi (mulDiv (v - s.value xj) e.2.1 e.2.2) true
    s.enqueueD e.1) s
  let s := { s with tab := s.tab.compactCol j }
  pure (s.setValue lvl xj v false)

theorem updateD_eq (s : S V) (lvl j : Nat) (v : V) : s.updateD lvl j v = guardD (s.updateAsserts j) (pure (s.update lvl j v)) := by
  unfold updateD updateAsserts update colOk
  rw [nonBasicD_eq, guardD_bind, pure_bindD,
    foldlM_guard (c := fun e : Nat × Int × Int => decide (e.1 < s.m)) (fun t : S V => t.m = s.m)
      (fun t e ht => by
        rw [basicD_eq, guardD_bind, pure_bindD, enqueueD_eq, (setValue_nm ..).2, ht, guardD_guardD, Bool.and_self])
      (fun t e ht => by rw [(enqueue_nm ..).2, (setValue_nm ..).2, ht]) _ _ rfl,
    guardD_bind, pure_bindD, guardD_guardD]

/-- solving.cc:942-947 the callback of `pivot_` for one entry of column `j`. -/
def pivotEntryD (lvl i : Nat) (vj : V) (s : S V) (e : Nat × Int × Int) : D (S V) :=
  if e.1 ≠ i then do
    let xk ← s.basicD e.1
    let s := s.setValue lvl xk (mulDiv vj e.2.1 e.2.2) true
    s.enqueueD e.1
  else pure s

/-- solving.cc:940-948 adjusting the assignment in `pivot_`. -/
def pivotAdjustD (s : S V) (lvl i j xi xj : Nat) (v vj : V) : D (S V) := do
  let s := s.setValue lvl xi v false
  let s := s.setValue lvl xj vj true
  let s ← (s.tab.colEntries j).foldlM (pivotEntryD lvl i vj) s
  pure { s with tab := s.tab.compactCol j }

/-- solving.cc:951-957 swapping the variables and pivoting the tableau in `pivot_`. -/
def pivotSwapD (s : S V) (i j xi xj : Nat) : D (S V) := do
  let ri := s.rindex xi
  let rj := s.rindex xj
  let s := { s with rindex := Function.update (Function.update s.rindex xi rj) xj ri }
  let ii := s.index (i + s.n)
  let jj := s.index j
  let s := { s with index := Function.update (Function.update s.index (i + s.n) jj) j ii }
  let s ← s.enqueueD i
  let tab ← s.tab.pivotD i j
  pure { s with tab := tab, pivots := s.pivots + 1 }

/-- solving.cc:929-963 `pivot_` with assertions. -/
def pivotD (extra : Bool) (s : S V) (lvl i j : Nat) (v : V) : D (S V) := do
  let a := (Tableau.findCell (s.tab.rows i).cells j).getD 0
  let d := (s.tab.rows i).den
  assertD (decide (a ≠ 0))
  let xi ← s.basicD i
  let xj ← s.nonBasicD j
  let vj := divMul (v - s.value xi) a d
  let s ← s.pivotAdjustD lvl i j xi xj v vj
  assertExtraD extra s.checkTableau
  let s ← s.pivotSwapD i j xi xj
  assertExtraD extra s.checkTableau
  assertExtraD extra s.checkBasic
  assertExtraD extra s.checkNonBasic
  pure s

theorem enqueue_tab (s : S V) (i : Nat) : (s.enqueue i).tab = s.tab := by
  unfold enqueue; simp only; split <;> split <;> rfl
theorem setValue_tab (s : S V) (l v : Nat) (x : V) (a : Bool) : (s.setValue l v x a).tab = s.tab := by
  unfold setValue; simp only; split <;> rfl

theorem pivotEntryD_eq (lvl i : Nat) (vj : V) (s : S V) (e : Nat × Int × Int) :
    pivotEntryD lvl i vj s e = guardD (if e.1 ≠ i then decide (e.1 < s.m) else true)
      (pure (if e.1 ≠ i then (s.setValue lvl (s.index (e.1 + s.n)) (mulDiv vj e.2.1 e.2.2) true).enqueue e.1 else s)) := by
  unfold pivotEntryD
  split
  · rw [basicD_eq, guardD_bind, pure_bindD, enqueueD_eq, (setValue_nm ..).2, guardD_guardD, Bool.and_self]
  · rfl

theorem pivotAdjustD_eq (s : S V) (lvl i j : Nat) (v : V) (hi : i < s.m) :
    s.pivotAdjustD lvl i j (s.index (i + s.n)) (s.index j) v
      (divMul (v - s.value (s.index (i + s.n))) ((Tableau.findCell (s.tab.rows i).cells j).getD 0) (s.tab.rows i).den) =
    guardD (s.colOk j) (pure (s.pivotMid lvl i j v)) := by
  unfold pivotAdjustD colOk pivotMid
  simp only
  generalize divMul (v - s.value (s.index (i + s.n))) ((Tableau.findCell (s.tab.rows i).cells j).getD 0) (s.tab.rows i).den = vj
  generalize hs1 : (s.setValue lvl (s.index (i + s.n)) v false).setValue lvl (s.index j) vj true = s1
  have h1 : s1.m = s.m := by rw [← hs1, (setValue_nm ..).2, (setValue_nm ..).2]
  have h2 : s1.tab = s.tab := by rw [← hs1, setValue_tab, setValue_tab]
  rw [foldlM_guard (c := fun e : Nat × Int × Int => decide (e.1 < s.m)) (fun t : S V => t.m = s.m)
      (g := fun s (e : Nat × Int × Int) => if e.1 ≠ i then (s.setValue lvl (s.index (e.1 + s.n)) (mulDiv vj e.2.1 e.2.2) true).enqueue e.1 else s)
      (fun t e ht => by
        rw [pivotEntryD_eq, ht]
        by_cases he : e.1 = i
        · simp only [he, ne_eq, not_true_eq_false, if_false, hi, decide_true]
        · simp only [he, ne_eq, not_false_eq_true, if_true])
      (fun t e ht => by
        split
        · rw [(enqueue_nm ..).2, (setValue_nm ..).2, ht]
        · exact ht) _ _ h1, guardD_bind, pure_bindD, h2]

theorem pivotSwapD_eq (s : S V) (i j xi xj : Nat) (hi : i < s.m) :
    s.pivotSwapD i j xi xj = guardD (s.tab.pivotAsserts i j) (pure (s.pivotEnd i j xi xj)) := by
  unfold pivotSwapD pivotEnd
  simp only [enqueueD_eq, hi, decide_true, guardD_true, pure_bindD, Tableau.pivotD_eq, enqueue_tab, guardD_bind]

theorem pivotMid_m (s : S V) (lvl i j : Nat) (v : V) : (s.pivotMid lvl i j v).m = s.m := by
  unfold pivotMid
  simp only
  rw [List.foldlRecOn (motive := fun t : S V => t.m = s.m) _ _ (by rw [(setValue_nm ..).2, (setValue_nm ..).2])
    (fun t ht e _ => by split; · rw [(enqueue_nm ..).2, (setValue_nm ..).2, ht]
                        · exact ht)]

theorem pivotD_eq (extra : Bool) (s : S V) (lvl i j : Nat) (v : V) :
    s.pivotD extra lvl i j v = guardD (s.pivotAsserts extra lvl i j v) (pure (s.pivot lvl i j v)) := by
  unfold pivotD pivotAsserts
  simp only [assertD_eq, basicD_eq, nonBasicD_eq, guardD_bind, pure_bindD]
  cases ha : Tableau.findCell (s.tab.rows i).cells j with
  | none => rfl
  | some a =>
    rw [Option.getD_some]
    by_cases h0 : a = 0
    · simp only [h0, ne_eq, not_true_eq_false, decide_false, Bool.false_and]; rfl
    · simp only [h0, ne_eq, not_false_eq_true, decide_true, Bool.true_and, guardD_true]
      by_cases hi : i < s.m
      · by_cases hj : j < s.n
        · have hadj := pivotAdjustD_eq s lvl i j v hi
          rw [ha, Option.getD_some] at hadj
          simp only [hi, hj, decide_true, Bool.true_and, guardD_true]
          simp only [hadj, guardD_bind, pure_bindD, assertExtraD_eq, guardD_guardD,
            pivotSwapD_eq _ _ _ _ _ (show i < (s.pivotMid lvl i j v).m by rw [pivotMid_m]; exact hi), ← s.pivot_parts lvl i j v ha h0 hi hj, Bool.and_assoc]
        · simp only [hj, decide_false, Bool.and_false, Bool.false_and, guardD_false, hi, decide_true, guardD_true]
      · simp only [hi, decide_false, Bool.false_and, guardD_false]

/-- solving.cc:970-1018 the loop of `select_` over the heap with the assertions in lines 974 and 1016. -/
def selectLoopD (extra : Bool) : List Nat → S V → D (S V × Sel V)
  | [], s => do
    let s := { s with conflicts := [] }
    assertExtraD extra s.checkSolution
    pure (s, .sat)
  | ii :: rest, s => do
    let i := s.rindex ii
    assertD (decide (ii = s.index i))
    let s := { s with queued := Function.update s.queued ii false }
    if i < s.n then selectLoopD extra rest s
    else
      let i := i - s.n
      let lower := s.belowLo ii
      match (if lower then s.lo ii else if s.aboveUp ii then s.up ii else none) with
      | none => selectLoopD extra rest s
      | some bnd =>
        let c0 := -((s.blit (if lower then s.lower ii else s.upper ii)).getD 0)
        let st := (s.tab.rowEntries i).foldl (selectEntry s i lower bnd) { kk := s.nvars, clause := [c0], ret := none }
        let s := { s with conflicts := ii :: rest, clause := st.clause }
        match st.ret with
        | none => pure (s, .unsat)
        | some (i, j, v) => pure (s, .unknown i j v)

theorem selBnd_isSome (s : S V) (ii : Nat) :
    (if s.belowLo ii then s.lo ii else if s.aboveUp ii then s.up ii else none).isSome = (s.belowLo ii || s.aboveUp ii) := by
  unfold belowLo aboveUp
  cases s.lo ii <;> cases s.up ii <;> simp <;> split_ifs <;> simp_all

theorem match_ret (o : Option (Nat × Nat × V)) (s : S V) :
    (match o with | none => pure (s, Sel.unsat) | some (i, j, v) => pure (s, Sel.unknown i j v) : D (S V × Sel V)) =
    pure (match o with | none => (s, Sel.unsat) | some (i, j, v) => (s, Sel.unknown i j v)) := by
  cases o <;> rfl

theorem selectLoopD_eq (extra : Bool) : ∀ (l : List Nat) (s : S V),
    selectLoopD extra l s = guardD (selectLoopAsserts extra l s) (pure (selectLoop l s))
  | [], s => by
    unfold selectLoopD selectLoopAsserts selectLoop
    simp only [assertExtraD_eq, guardD_bind, pure_bindD]
  | ii :: rest, s => by
    unfold selectLoopD selectLoopAsserts selectLoop
    simp only [assertD_eq, guardD_bind, pure_bindD]
    rw [← guardD_guardD]
    congr 1
    by_cases hi : s.rindex ii < s.n
    · rw [if_pos hi, if_pos hi, if_pos hi]
      exact selectLoopD_eq extra rest _
    · rw [if_neg hi, if_neg hi, if_neg hi]
      have hb := selBnd_isSome ({ s with queued := Function.update s.queued ii false } : S V) ii
      rw [← hb]
      cases (if ({ s with queued := Function.update s.queued ii false } : S V).belowLo ii then
        ({ s with queued := Function.update s.queued ii false } : S V).lo ii
        else if ({ s with queued := Function.update s.queued ii false } : S V).aboveUp ii then
        ({ s with queued := Function.update s.queued ii false } : S V).up ii else none) with
      | none => exact selectLoopD_eq extra rest _
      | some b =>
        simp only [Option.isSome_some, if_true, guardD_true]
        exact match_ret _ _

/-- solving.cc:965-1019 `select_` with assertions. -/
def selectD (extra : Bool) (s : S V) : D (S V × Sel V) := selectLoopD extra s.conflicts s

theorem selectD_eq (extra : Bool) (s : S V) : s.selectD extra = guardD (s.selectAsserts extra) (pure s.select) := selectLoopD_eq ..

/-! ### solve -/

/-- solving.cc:597-617 `update_bound_` with assertions. -/
def updateBoundD (ctl : Ctl) (s : S V) (b : Nat) (bd : Bound V) : D (S V × Bool) :=
  let x := bd.var
  let r := s.updateVar ctl b bd
  let s := r.1
  if !r.2 then
    match s.blit (s.upper x), s.blit (s.lower x) with
    | some u, some l =>
      let c := [-u, -l]
      pure (({ s with clause := c }).emit c, false)
    | _, _ => pure ({ s with ub := true }, false)
  else if s.rindex x < s.n then
    match (if s.belowLo x then s.lo x else if s.aboveUp x then s.up x else none) with
    | none => pure (s, true)
    | some v => do
      let s ← s.updateD ctl.dl (s.rindex x) v
      pure (s, true)
  else do
    let s ← s.enqueueD (s.rindex x - s.n)
    pure (s, true)

theorem updateBoundD_eq (ctl : Ctl) (s : S V) (b : Nat) (bd : Bound V) :
    s.updateBoundD ctl b bd = guardD (s.updateBoundAsserts ctl b bd) (pure (s.updateBound ctl b bd)) := by
  unfold updateBoundD updateBoundAsserts updateBound
  simp only
  generalize s.updateVar ctl b bd = r
  obtain ⟨t, ok⟩ := r
  cases ok with
  | false =>
    simp only [Bool.not_false, if_true]
    cases t.blit (t.upper bd.var) <;> cases t.blit (t.lower bd.var) <;> rfl
  | true =>
    simp only [Bool.not_true, Bool.false_eq_true, if_false]
    by_cases hx : t.rindex bd.var < t.n
    · simp only [if_pos hx, updateD_eq, guardD_bind, pure_bindD]
      unfold belowLo aboveUp
      cases t.lo bd.var <;> cases t.up bd.var <;> simp <;> (try split_ifs) <;> simp_all [guardD_true, not_lt.2, decide_eq_false]
    · simp only [if_neg hx, enqueueD_eq, guardD_bind, pure_bindD]

/-- solving.cc:679-685 the loop over the bounds of literal `lit` with the assertion in line 681. -/
def updateBoundsD (ctl : Ctl) (lit : Int) : List (Nat × Bound V) → S V → D (S V × Bool)
  | [], s => pure (s, true)
  | (b, bd) :: bs, s => do
    assertD (decide (lit = bd.lit))
    let r ← s.updateBoundD ctl b bd
    if r.2 then updateBoundsD ctl lit bs r.1 else pure r

theorem updateBoundsD_eq (ctl : Ctl) (lit : Int) : ∀ (bs : List (Nat × Bound V)) (s : S V),
    updateBoundsD ctl lit bs s = guardD (updateBoundsAsserts ctl lit bs s) (pure (updateBounds ctl bs s))
  | [], _ => rfl
  | (b, bd) :: bs, s => by
    unfold updateBoundsD updateBoundsAsserts updateBounds
    simp only [assertD_eq, updateBoundD_eq, guardD_bind, pure_bindD]
    rw [← guardD_guardD, ← guardD_guardD]
    congr 2
    split
    · exact updateBoundsD_eq ctl lit bs _
    · rfl

/-- solving.cc:678-686 the loop over the literals. -/
def updateLitsD (ctl : Ctl) : List Int → S V → D (S V × Bool)
  | [], s => pure (s, true)
  | l :: ls, s => do
    let r ← updateBoundsD ctl l (s.boundsOf l) s
    if r.2 then updateLitsD ctl ls r.1 else pure r

theorem updateLitsD_eq (ctl : Ctl) : ∀ (ls : List Int) (s : S V),
    updateLitsD ctl ls s = guardD (updateLitsAsserts ctl ls s) (pure (updateLits ctl ls s))
  | [], _ => rfl
  | l :: ls, s => by
    unfold updateLitsD updateLitsAsserts updateLits
    simp only [updateBoundsD_eq, guardD_bind, pure_bindD]
    rw [← guardD_guardD]
    congr 1
    split
    · exact updateLitsD_eq ctl ls _
    · rfl

/-- solving.cc:733-743 the first scan of a row in `propagate_row`: whether there are a lower and an upper bound. -/
def scanRowD (s : S V) (i : Nat) : D (Bool × Bool) :=
  (s.tab.rowEntries i).foldlM (fun acc (e : Nat × Int × Int) => do
    let jj ← s.nonBasicD e.1
    let pos := decide (e.2.1 > 0) == decide (e.2.2 > 0)
    let hl := acc.1 && (if pos then (s.lo jj).isSome else (s.up jj).isSome)
    let hu := acc.2 && (if pos then (s.up jj).isSome else (s.lo jj).isSome)
    pure (hl, hu)) (true, true)

theorem foldl_and2 {α : Type} (f g : α → Bool) : ∀ (l : List α) (a b : Bool),
    l.foldl (fun (acc : Bool × Bool) e => (acc.1 && f e, acc.2 && g e)) (a, b) = (a && l.all f, b && l.all g)
  | [], a, b => by simp
  | e :: l, a, b => by rw [List.foldl_cons, foldl_and2 f g l]; simp [Bool.and_assoc]

theorem scanRowD_eq (s : S V) (i : Nat) : s.scanRowD i = guardD (s.rowOk i) (pure (s.rowHasLower i, s.rowHasUpper i)) := by
  unfold scanRowD rowOk rowHasLower rowHasUpper
  rw [foldlM_guard (fun _ => True) (fun acc e _ => by rw [nonBasicD_eq, guardD_bind, pure_bindD]) (fun _ _ _ => trivial) _ _ trivial, foldl_and2,
    Bool.true_and, Bool.true_and]

/-- solving.cc:729-802 `propagate_row` with assertions. The second scan of the row (lines 749-771) calls `non_basic_` with the same arguments. -/
def propRowD (ctl : Ctl) (s : S V) (i : Nat) : D (S V × Bool) := do
  let s := { s with prop := Function.update s.prop i false }
  let h ← s.scanRowD i
  if !h.2 && !h.1 then pure (s, true)
  else
    let _ ← s.scanRowD i
    let lo := s.rowBound i (fun pos => !pos)
    let up := s.rowBound i (fun pos => pos)
    let yi ← s.basicD i
    let bs := s.vbounds yi
    let r := if h.2 then
        propBounds ctl up.2 (fun bd => decide (bd.rel ≠ .le) && decide (up.1 < bd.value)) bs s
      else (s, true)
    if !r.2 then pure r
    else if h.1 then
      pure (propBounds ctl lo.2 (fun bd => decide (bd.rel ≠ .ge) && decide (bd.value < lo.1)) bs r.1)
    else pure r

theorem propRowD_eq (ctl : Ctl) (s : S V) (i : Nat) : s.propRowD ctl i = guardD (s.propRowAsserts i) (pure (s.propRow ctl i)) := by
  unfold propRowD propRowAsserts propRow
  simp only [scanRowD_eq, guardD_bind, pure_bindD, basicD_eq]
  rw [← guardD_guardD]
  refine guardD_congr' rfl fun hr => ?_
  have e1 : s.rowHasUpper i = ({ s with prop := Function.update s.prop i false } : S V).rowHasUpper i := rfl
  have e2 : s.rowHasLower i = ({ s with prop := Function.update s.prop i false } : S V).rowHasLower i := rfl
  have e3 : s.m = ({ s with prop := Function.update s.prop i false } : S V).m := rfl
  rw [e1, e2, e3]
  generalize ({ s with prop := Function.update s.prop i false } : S V) = t at hr ⊢
  split
  · rfl
  · rw [hr, guardD_true]
    congr 1
    cases t.rowHasUpper i <;> cases t.rowHasLower i <;> simp <;> split <;> rfl

/-- solving.cc:804-810 the rows in the queue. -/
def propQueueD (ctl : Ctl) : List Nat → S V → D (S V × Bool)
  | [], s => pure (s, true)
  | i :: is, s => do
    let r ← { s with pqueue := is }.propRowD ctl i
    if r.2 then propQueueD ctl is r.1 else pure r

/-- solving.cc:812-816 all rows. -/
def propRowsD (ctl : Ctl) : List Nat → S V → D (S V × Bool)
  | [], s => pure (s, true)
  | i :: is, s => do
    let r ← s.propRowD ctl i
    if r.2 then propRowsD ctl is r.1 else pure r

theorem propQueueD_eq (ctl : Ctl) : ∀ (l : List Nat) (s : S V),
    propQueueD ctl l s = guardD (propQueueAsserts ctl l s) (pure (propQueue ctl l s))
  | [], _ => rfl
  | i :: is, s => by
    unfold propQueueD propQueueAsserts propQueue
    simp only [propRowD_eq, guardD_bind, pure_bindD]
    rw [← guardD_guardD]
    congr 1
    split
    · exact propQueueD_eq ctl is _
    · rfl

theorem propRowsD_eq (ctl : Ctl) : ∀ (l : List Nat) (s : S V),
    propRowsD ctl l s = guardD (propRowsAsserts ctl l s) (pure (propRows ctl l s))
  | [], _ => rfl
  | i :: is, s => by
    unfold propRowsD propRowsAsserts propRows
    simp only [propRowD_eq, guardD_bind, pure_bindD]
    rw [← guardD_guardD]
    congr 1
    split
    · exact propRowsD_eq ctl is _
    · rfl

/-- solving.cc:712-819 `propagate_` with assertions. -/
def propagateD (ctl : Ctl) (s : S V) : D (S V × Bool) :=
  match s.opts.propagateMode with
  | .none => pure (s, true)
  | .changed => propQueueD ctl s.pqueue s
  | .full => propRowsD ctl (List.range s.m) s

theorem propagateD_eq (ctl : Ctl) (s : S V) : s.propagateD ctl = guardD (s.propagateAsserts ctl) (pure (s.propagate ctl)) := by
  unfold propagateD propagateAsserts propagate
  cases s.opts.propagateMode with
  | none => rfl
  | changed => exact propQueueD_eq ..
  | full => exact propRowsD_eq ..

/-- solving.cc:692-709 the loop of `solve` with assertions. -/
def solveLoopD (extra : Bool) (ctl : Ctl) : Nat → S V → D (S V × Bool)
  | 0, _ => .error .noResult
  | fuel + 1, s => do
    let r ← s.selectD extra
    let s := r.1
    match r.2 with
    | .sat =>
      let s := if s.opts.store = .part then s.storeSat else s
      s.propagateD ctl
    | .unsat => pure (s.emit s.clause, false)
    | .unknown i j v => do
      let s ← s.pivotD extra ctl.dl i j v
      solveLoopD extra ctl fuel s

theorem solveLoopD_eq (extra : Bool) (ctl : Ctl) : ∀ (fuel : Nat) (s : S V),
    solveLoopD extra ctl fuel s = guardD (solveLoopAsserts extra ctl fuel s) (ofOption (solveLoop ctl fuel s))
  | 0, _ => rfl
  | fuel + 1, s => by
    unfold solveLoopD solveLoopAsserts solveLoop
    simp only [selectD_eq, guardD_bind, pure_bindD]
    rw [← guardD_guardD]
    congr 1
    cases s.select.2 with
    | sat => exact propagateD_eq ..
    | unsat => rfl
    | unknown i j v =>
      simp only [pivotD_eq, guardD_bind, pure_bindD, solveLoopD_eq extra ctl fuel, guardD_guardD]

/-- solving.cc:665-710 `solve` with assertions. -/
def solveD (extra : Bool) (ctl : Ctl) (fuel : Nat) (s : S V) (lits : List Int) : D (S V × Bool) := do
  let r ← updateLitsD ctl lits (s.pushOff ctl)
  if r.2 then do
    assertExtraD extra r.1.checkTableau
    assertExtraD extra r.1.checkBasic
    assertExtraD extra r.1.checkNonBasic
    solveLoopD extra ctl fuel r.1
  else pure r

theorem solveD_eq (extra : Bool) (ctl : Ctl) (fuel : Nat) (s : S V) (lits : List Int) :
    s.solveD extra ctl fuel lits = guardD (s.solveAsserts extra ctl fuel lits) (ofOption (s.solve ctl fuel lits)) := by
  unfold solveD solveAsserts solve
  simp only [updateLitsD_eq, guardD_bind, pure_bindD]
  rw [← guardD_guardD]
  congr 1
  split
  · simp only [assertExtraD_eq, guardD_bind, pure_bindD, solveLoopD_eq, guardD_guardD, Bool.and_assoc]
  · rfl

/-- solving.cc:821-866 `undo` with the assertion in line 862. -/
def undoD (extra : Bool) (s : S V) : D (S V) := do
  let s := s.undo
  assertExtraD extra s.checkSolution
  pure s

theorem undoD_eq (extra : Bool) (s : S V) : s.undoD extra = guardD (s.undoAsserts extra) (pure s.undo) := by
  unfold undoD undoAsserts
  simp only [assertExtraD_eq, guardD_bind, pure_bindD]

/-! ### optimize -/

/-- solving.cc:541-561 the callback for one row of the column of the entering variable. -/
def leaveEntryD (s : S V) (ee : Nat) (pos : Bool) (acc : Option (Leave V)) (e : Nat × Int × Int) : D (Option (Leave V)) := do
  let yi ← s.basicD e.1
  let posi := decide (e.2.1 > 0) == decide (e.2.2 > 0)
  let increase := posi == pos
  match (if increase then s.up yi else s.lo yi) with
  | none => pure acc
  | some vi =>
    let ii := s.index (e.1 + s.n)
    assertD (decide (e.1 = s.rindex yi - s.n))
    let v := s.value ee + divMul (vi - s.value yi) e.2.1 e.2.2
    let skip : Bool :=
      if pos then (match s.up ee with | none => false | some u => decide (u ≤ v))
      else (match s.lo ee with | none => false | some l => decide (v ≤ l))
    if skip then pure acc
    else
      match acc with
      | none => pure (some ⟨ii, vi, v⟩)
      | some c =>
        if (if pos then decide (v < c.ve) else decide (c.ve < v)) || (decide (ii < c.ll) && decide (v = c.ve)) then
          pure (some ⟨ii, vi, v⟩)
        else pure acc

theorem leaveEntryD_eq (s : S V) (ee : Nat) (pos : Bool) (acc : Option (Leave V)) (e : Nat × Int × Int) :
    s.leaveEntryD ee pos acc e = guardD (s.leaveAsserts pos e) (pure (s.leaveEntry ee pos acc e)) := by
  unfold leaveEntryD leaveAsserts leaveEntry
  simp only [basicD_eq, guardD_bind, pure_bindD]
  rw [← guardD_guardD]
  congr 1
  cases (if (((decide (e.2.1 > 0) == decide (e.2.2 > 0)) == pos) = true) then s.up (s.index (e.1 + s.n)) else s.lo (s.index (e.1 + s.n))) with
  | none => rfl
  | some vi =>
    simp only [assertD_eq, guardD_bind, pure_bindD]
    congr 1
    cases pos <;> cases s.up ee <;> cases s.lo ee <;> cases acc <;> simp only [if_true, if_false, Bool.false_eq_true] <;> split_ifs <;> rfl

/-- solving.cc:506-580 one iteration of `optimize` with assertions. -/
def optStepD (extra : Bool) (s : S V) : D (S V ⊕ S V) :=
  if s.rindex s.obj.var < s.n then pure (.inl { s with ub := true })
  else
    let z := s.rindex s.obj.var - s.n
    let en := s.selectEnter z
    if en.1 = s.nvars then do
      assertExtraD extra s.checkSolution
      pure (.inl { s with obj := { s.obj with bounded := true } })
    else do
      let ee := en.1
      let e := s.rindex ee
      assertD (decide (ee = s.index e))
      let lv ← (s.tab.colEntries e).foldlM (leaveEntryD s ee en.2) none
      let s := { s with tab := s.tab.compactCol e }
      let level := s.topLevel
      match lv with
      | some c => do
        let s ← s.pivotD extra level (s.rindex c.ll - s.n) e c.bnd
        pure (.inr s)
      | none =>
        match (if en.2 then s.up ee else s.lo ee) with
        | none => do
          assertExtraD extra s.checkSolution
          pure (.inl { s with obj := { s.obj with bounded := false } })
        | some b => do
          let s ← s.updateD level e b
          pure (.inr s)

theorem match_opt {α β : Type} (o : Option α) (a : Bool) (x : β) (f : α → Bool) (g : α → β) :
    (match o with | none => guardD a (pure x) | some b => guardD (f b) (pure (g b)) : D β) =
    guardD (match o with | none => a | some b => f b) (pure (match o with | none => x | some b => g b)) := by
  cases o <;> rfl

theorem optStepD_eq (extra : Bool) (s : S V) : s.optStepD extra = guardD (s.optStepAsserts extra) (pure s.optStep) := by
  unfold optStepD optStepAsserts optStep
  split
  · rfl
  · simp only
    split
    · simp only [assertExtraD_eq, guardD_bind, pure_bindD]
    · rw [foldlM_guard (fun _ => True) (fun acc e _ => leaveEntryD_eq s _ _ acc e) (fun _ _ _ => trivial) _ _ trivial]
      simp only [assertD_eq, guardD_bind, pure_bindD]
      rw [← guardD_guardD, ← guardD_guardD]
      congr 2
      change (match s.selectLeave _ _ with | some c => _ | none => _) = _
      cases s.selectLeave (s.selectEnter (s.rindex s.obj.var - s.n)).1 (s.selectEnter (s.rindex s.obj.var - s.n)).2 with
      | some c => simp only [pivotD_eq, guardD_bind, pure_bindD]
      | none =>
        simp only [updateD_eq, assertExtraD_eq, guardD_bind, pure_bindD]
        exact match_opt _ _ _ _ _

/-- solving.cc:506-580 the loop of `optimize`. -/
def optLoopD (extra : Bool) : Nat → S V → D (S V)
  | 0, _ => .error .noResult
  | fuel + 1, s => do
    let r ← s.optStepD extra
    match r with
    | .inl s => pure s
    | .inr s => optLoopD extra fuel s

theorem optLoopD_eq (extra : Bool) : ∀ (fuel : Nat) (s : S V),
    optLoopD extra fuel s = guardD (optLoopAsserts extra fuel s) (ofOption (optLoop fuel s))
  | 0, _ => rfl
  | fuel + 1, s => by
    unfold optLoopD optLoopAsserts optLoop
    simp only [optStepD_eq, guardD_bind, pure_bindD]
    rw [← guardD_guardD]
    congr 1
    cases s.optStep with
    | inl s => rfl
    | inr s => exact optLoopD_eq extra fuel s

/-- solving.cc:446-581 `optimize` with the assertions in lines 447 and 505. -/
def optimizeD (extra : Bool) (fuel : Nat) (s : S V) : D (S V) := do
  assertD (!s.obj.active || decide (s.n ≤ s.rindex s.obj.var))
  if s.obj.active then do
    assertExtraD extra s.checkSolution
    optLoopD extra fuel s
  else pure s

theorem optimizeD_eq (extra : Bool) (fuel : Nat) (s : S V) :
    s.optimizeD extra fuel = guardD (s.optimizeAsserts extra fuel) (ofOption (s.optimize fuel)) := by
  unfold optimizeD optimizeAsserts optimize
  simp only [assertD_eq, assertExtraD_eq, guardD_bind, pure_bindD, optLoopD_eq, guardD_guardD]
  cases s.obj.active with
  | false => rfl
  | true => simp only [Bool.not_true, Bool.false_or, if_true, guardD_guardD, Bool.and_assoc]

/-! ### prepare -/

/-- solving.cc:84-107 `bound_val` with the assertion in line 88, which is only compiled in the instance for rational numbers. -/
def boundValD (strict : Bool) (x : Rat) (rel : Relation) : D V := do
  assertD (strict || (decide (rel ≠ .lt) && decide (rel ≠ .gt)))
  pure (boundVal x rel)

theorem boundValD_eq (strict : Bool) (x : Rat) (rel : Relation) :
    (boundValD strict x rel : D V) = guardD (boundValAssert strict rel) (pure (boundVal x rel)) := by
  unfold boundValD
  rw [assertD_eq, guardD_bind, pure_bindD]
  congr 1
  cases rel <;> cases strict <;> rfl

theorem boundValAssert_invert (strict : Bool) (rel : Relation) : boundValAssert strict rel.invert = boundValAssert strict rel := by
  cases rel <;> rfl

variable {Sym : Type}

/-- solving.cc:119-123 `get_non_basic` with the assertion in line 121. -/
def getNonBasicD (idx : Sym → Option Nat) (x : Sym) : D Nat :=
  match idx x with
  | none => .error .assertion
  | some j => pure j

/-- solving.cc:133-143 `add_row`. -/
def addRowD (idx : Sym → Option Nat) : List (Term Sym) → D (List (Nat × Rat))
  | [] => pure []
  | t :: ts => do
    let j ← getNonBasicD idx t.var
    let r ← addRowD idx ts
    pure ((j, t.co) :: r)

theorem addRowD_eq (idx : Sym → Option Nat) : ∀ (ts : List (Term Sym)),
    addRowD idx ts = match addRow idx ts with | none => .error .assertion | some r => pure r
  | [] => rfl
  | t :: ts => by
    unfold addRowD addRow getNonBasicD
    rw [addRowD_eq idx ts]
    cases idx t.var <;> cases addRow idx ts <;> rfl

theorem addRow_isSome (idx : Sym → Option Nat) : ∀ (ts : List (Term Sym)), (addRow idx ts).isSome = addRowAsserts idx ts
  | [] => rfl
  | t :: ts => by
    have := addRow_isSome idx ts
    unfold addRow
    unfold addRowAsserts at this ⊢
    rw [List.all_cons, ← this]
    cases idx t.var <;> cases addRow idx ts <;> rfl

/-- solving.cc:285-347 one inequality with assertions. -/
def prepIneqD (strict : Bool) (env : InitEnv) (idx : Sym → Option Nat) (master : Bool) (s : S V) (x : Ineq Sym) : D (S V × Bool) :=
  if env.isFalse s.out x.lit then pure (s, true)
  else do
    let row ← addRowD idx x.lhs
    match row with
    | [] =>
      if !master then pure (s, true)
      else if constTest x.rel x.rhs then
        let s := { s with out := s.out ++ [[-x.lit]] }
        pure (s, env.ok s.out)
      else pure (s, true)
    | [(j, v)] =>
      if v = 0 then pure ({ s with ub := true }, false) else do
      let rel := if v < 0 then x.rel.invert else x.rel
      let val ← boundValD strict (x.rhs / v) rel
      let b : Bound V := { value := val, var := s.index j, lit := x.lit, rel := boundRel rel }
      pure ({ s with bounds := s.bounds ++ [b] }, true)
    | row => do
      let s := s.newRow row
      let val ← boundValD strict x.rhs x.rel
      let b : Bound V := { value := val, var := s.nvars - 1, lit := x.lit, rel := boundRel x.rel }
      pure ({ s with bounds := s.bounds ++ [b] }, true)

theorem addRow_co (idx : Sym → Option Nat) : ∀ (ts : List (Term Sym)) (r : List (Nat × Rat)), addRow idx ts = some r →
    r.map Prod.snd = ts.map Term.co
  | [], r, h => by cases h; rfl
  | t :: ts, r, h => by
    unfold addRow at h
    cases hi : idx t.var with
    | none => rw [hi] at h; cases h
    | some j =>
      cases ha : addRow idx ts with
      | none => rw [hi, ha] at h; cases h
      | some r' =>
        rw [hi, ha] at h
        cases h
        rw [List.map_cons, List.map_cons, addRow_co idx ts r' ha]

theorem prepIneqD_eq (strict : Bool) (env : InitEnv) (idx : Sym → Option Nat) (master : Bool) (s : S V) (x : Ineq Sym) :
    prepIneqD strict env idx master s x = guardD (s.prepIneqAsserts strict env idx x) (pure (prepIneq env idx master s x)) := by
  unfold prepIneqD prepIneqAsserts prepIneq
  split
  · rfl
  · rw [addRowD_eq, ← addRow_isSome]
    cases ha : addRow idx x.lhs with
    | none => rfl
    | some row =>
      have hco := addRow_co idx _ _ ha
      simp only [pure_bindD, Option.isSome_some, Bool.true_and]
      match row, x.lhs, hco with
      | [], [], _ =>
        simp only [guardD_true]
        split
        · rfl
        · split <;> rfl
      | [(j, v)], [t], hco =>
        have hv : v = t.co := by simpa using hco
        subst hv
        simp only
        by_cases h0 : t.co = 0
        · rw [if_pos h0, if_pos h0, decide_eq_true h0, Bool.true_or, guardD_true]
        · rw [if_neg h0, if_neg h0, decide_eq_false h0, Bool.false_or, boundValD_eq, guardD_bind, pure_bindD]
          refine guardD_congr' ?_ fun _ => rfl
          split
          · exact boundValAssert_invert ..
          · rfl
      | a :: b :: r, t :: u :: ts, _ =>
        simp only [boundValD_eq, guardD_bind, pure_bindD]

/-- solving.cc:285-347 the loop over the inequalities in `prepare`. -/
def prepIneqsD (strict : Bool) (env : InitEnv) (idx : Sym → Option Nat) (master : Bool) : List (Ineq Sym) → S V → D (S V × Bool)
  | [], s => pure (s, true)
  | x :: xs, s => do
    let r ← prepIneqD strict env idx master s x
    if r.2 then prepIneqsD strict env idx master xs r.1 else pure r

theorem prepIneqsD_eq (strict : Bool) (env : InitEnv) (idx : Sym → Option Nat) (master : Bool) : ∀ (xs : List (Ineq Sym)) (s : S V),
    prepIneqsD strict env idx master xs s = guardD (prepIneqsAsserts strict env idx master xs s) (pure (prepIneqs env idx master xs s))
  | [], _ => rfl
  | x :: xs, s => by
    unfold prepIneqsD prepIneqsAsserts prepIneqs
    simp only [prepIneqD_eq, guardD_bind, pure_bindD]
    rw [← guardD_guardD]
    congr 1
    split
    · exact prepIneqsD_eq strict env idx master xs _
    · rfl

/-- solving.cc:349-364 the rows for the objective with assertions. -/
def prepObjectiveD (idx : Sym → Option Nat) (objective : List (Term Sym)) (s : S V) : D (S V) :=
  if objective.isEmpty then pure s
  else do
    let row ← addRowD idx objective
    let s := { s with obj := { s.obj with active := true } }
    let s := if s.opts.globalObjective.isSome then
        let s := s.newRow row
        { s with obj := { s.obj with boundVar := s.nvars - 1 } }
      else s
    let s := s.newRow row
    pure { s with obj := { s.obj with var := s.nvars - 1 } }

theorem prepObjectiveD_eq (idx : Sym → Option Nat) (objective : List (Term Sym)) (s : S V) :
    prepObjectiveD idx objective s = guardD (addRowAsserts idx objective) (pure (prepObjective idx objective s)) := by
  unfold prepObjectiveD prepObjective
  cases objective with
  | nil => rfl
  | cons t ts =>
    simp only [List.isEmpty_cons, Bool.false_eq_true, if_false]
    rw [addRowD_eq, ← addRow_isSome]
    cases addRow idx (t :: ts) <;> rfl

/-- solving.cc:278-400 `prepare` on a fresh solver with assertions. -/
def prepareD (extra strict : Bool) (env : InitEnv) (opts : Options) (idx : Sym → Option Nat) (size : Nat) (ineqs : List (Ineq Sym))
    (objective : List (Term Sym)) (master : Bool) : D (S V × Bool) := do
  let r ← prepIneqsD strict env idx master ineqs (initS opts size env.order)
  if !r.2 then pure r
  else do
    let s ← prepObjectiveD idx objective r.1
    let s ← (List.range s.m).foldlM (fun s i => s.enqueueD i) s
    let s := s.fillBounds
    assertExtraD extra s.checkTableau
    assertExtraD extra s.checkBasic
    assertExtraD extra s.checkNonBasic
    if s.opts.propagateConflicts && master then pure (confVars env (List.range s.nvars) s) else pure (s, true)

theorem prepareD_eq (extra strict : Bool) (env : InitEnv) (opts : Options) (idx : Sym → Option Nat) (size : Nat) (ineqs : List (Ineq Sym))
    (objective : List (Term Sym)) (master : Bool) :
    (prepareD extra strict env opts idx size ineqs objective master : D (S V × Bool)) =
    guardD (prepareAsserts V extra strict env opts idx size ineqs objective master) (pure (prepare env opts idx size ineqs objective master)) := by
  unfold prepareD prepareAsserts prepare
  simp only [prepIneqsD_eq, guardD_bind, pure_bindD]
  rw [← guardD_guardD]
  congr 1
  split
  · rfl
  · rw [prepObjectiveD_eq, guardD_bind, pure_bindD, ← guardD_guardD]
    congr 1
    generalize prepObjective idx objective (prepIneqs env idx master ineqs (initS opts size env.order : S V)).1 = s
    unfold prepEndAsserts
    rw [foldlM_guard (c := fun i => decide (i < s.m)) (fun t : S V => t.m = s.m) (fun t e ht => by rw [enqueueD_eq, ht])
      (fun t e ht => by rw [(enqueue_nm ..).2, ht]) _ _ rfl]
    simp only [guardD_bind, pure_bindD, assertExtraD_eq, guardD_guardD, Bool.and_assoc]
    congr 1
    split <;> rfl

end S

/-! ### the callbacks -/

section
variable {V : Type} [LpFull V]

/-- solving.cc:1135-1152 `check` after the facts have been asserted. -/
def S.checkObjD (extra : Bool) (ctl : Ctl) (fuel : Nat) (total : Bool) (o : ObjState V) (s : S V) : D (S V × Bool) :=
  let r := s.integrate ctl o
  if !r.2 then pure r
  else if total then do
    let s ← r.1.optimizeD extra fuel
    let s := if s.opts.store = .no then s else s.storeSat
    pure (s.discardBounded ctl)
  else pure r

theorem S.checkObjD_eq (extra : Bool) (ctl : Ctl) (fuel : Nat) (total : Bool) (o : ObjState V) (s : S V) :
    s.checkObjD extra ctl fuel total o = guardD (s.checkObjAsserts extra ctl fuel total o) (ofOption (s.checkObj ctl fuel total o)) := by
  unfold S.checkObjD S.checkObjAsserts S.checkObj
  simp only
  split
  · rfl
  · split
    · rw [S.optimizeD_eq, guardD_bind]
      congr 1
      unfold S.checkTotal
      cases S.optimize fuel (S.integrate ctl o s).1 <;> rfl
    · rfl

/-- solving.cc:1071-1078 the loop preparing the solvers. -/
def initThrsD (extra : Bool) (envs : Nat → InitEnv) (opts : Options) (idx : Symbol → Option Nat) (size : Nat) (p : Prog) :
    (k i : Nat) → D (List (Thr V) × Bool)
  | 0, _ => pure ([], true)
  | k + 1, i => do
    let r ← S.prepareD extra (LpSem.strict V) (envs i) opts idx size p.iqs p.objective (i == 0)
    if r.2 then do
      let rs ← initThrsD extra envs opts idx size p k (i + 1)
      pure (⟨0, r.1⟩ :: rs.1, rs.2)
    else pure ([⟨0, r.1⟩], false)

theorem initThrsD_eq (extra : Bool) (envs : Nat → InitEnv) (opts : Options) (idx : Symbol → Option Nat) (size : Nat) (p : Prog) : ∀ (k i : Nat),
    (initThrsD extra envs opts idx size p k i : D (List (Thr V) × Bool)) =
    guardD (initThrsAsserts V extra envs opts idx size p k i) (pure (initThrs envs opts idx size p k i))
  | 0, _ => rfl
  | k + 1, i => by
    unfold initThrsD initThrsAsserts initThrs
    simp only [S.prepareD_eq, guardD_bind, pure_bindD]
    rw [← guardD_guardD]
    congr 1
    split
    · rw [initThrsD_eq extra envs opts idx size p k (i + 1), guardD_bind, pure_bindD]
    · rfl

namespace Propagator

/-- solving.cc:1046-1079 `init` in a build with assertions. -/
def initD (extra : Bool) (be : Backend) (mapper : Int → Int) (atoms : List TAtom) (envs : Nat → InitEnv) (nthreads : Nat)
    (p : Propagator V) : D (Except Err (Propagator V × Bool)) :=
  let factsOffset := p.facts.length
  let checkBoth := p.checkBoth || decide (factsOffset > 0) || p.opts.globalObjective.isSome
  match evaluateTheory be mapper atoms p.prog with
  | .error e => pure (.error e)
  | .ok prog => do
    let m := gatherProg (p.varMap, p.varVec) prog
    let r ← initThrsD extra envs p.opts (fun x => m.1.lookup x) m.1.length prog nthreads 0
    pure (.ok ({ p with
            prog := prog, varMap := m.1, varVec := m.2, factsOffset := factsOffset, thrs := r.1, obj := ObjState.init,
            watches := p.watches ++ prog.iqs.map Ineq.lit, checkBoth := checkBoth }, r.2))

theorem initD_eq (extra : Bool) (be : Backend) (mapper : Int → Int) (atoms : List TAtom) (envs : Nat → InitEnv) (nthreads : Nat) (p : Propagator V) :
    p.initD extra be mapper atoms envs nthreads =
    guardD (p.initAsserts extra be mapper atoms envs nthreads) (pure (p.init be mapper atoms envs nthreads)) := by
  unfold initD initAsserts init
  simp only
  cases evaluateTheory be mapper atoms p.prog with
  | error e => rfl
  | ok prog => simp only [initThrsD_eq, guardD_bind, pure_bindD]

/-- solving.cc:1155-1163 `propagate` in a build with assertions. -/
def propagateD (extra : Bool) (fuel : Nat) (ctl : Ctl) (th : Nat) (lits : List Int) (p : Propagator V) : D (Propagator V × Bool) :=
  let p := if ctl.dl = 0 ∧ th = 0 then { p with facts := p.facts ++ lits } else p
  match p.thrs[th]? with
  | none => .error .noResult
  | some t => do
    let r ← t.slv.solveD extra ctl fuel lits
    pure (p.setThr th { t with slv := r.1 }, r.2)

theorem propagateD_eq (extra : Bool) (fuel : Nat) (ctl : Ctl) (th : Nat) (lits : List Int) (p : Propagator V) :
    p.propagateD extra fuel ctl th lits = guardD (p.propagateAsserts extra fuel ctl th lits) (ofOption (p.propagate fuel ctl th lits)) := by
  unfold propagateD propagateAsserts propagate
  simp only
  have e1 : (if ctl.dl = 0 ∧ th = 0 then { p with facts := p.facts ++ lits } else p).thrs[th]? = p.thrs[th]? := by split <;> rfl
  rw [e1]
  cases p.thrs[th]? with
  | none => rfl
  | some t =>
    simp only [S.solveD_eq, guardD_bind]
    congr 1
    cases S.solve ctl fuel t.slv lits <;> rfl

/-- solving.cc:1126-1134 the first part of `check`. -/
def checkFactsD (extra : Bool) (fuel : Nat) (ctl : Ctl) (th : Nat) (p : Propagator V) : D (Propagator V × Bool) :=
  match p.thrs[th]? with
  | none => .error .noResult
  | some t =>
    if p.needFacts ctl t then do
      let r ← t.slv.solveD extra ctl fuel (p.factSpan t)
      pure (p.setThr th ⟨p.factsOffset, r.1⟩, r.2)
    else pure (p, true)

theorem checkFactsD_eq (extra : Bool) (fuel : Nat) (ctl : Ctl) (th : Nat) (p : Propagator V) :
    p.checkFactsD extra fuel ctl th = guardD (p.checkFactsAsserts extra fuel ctl th) (ofOption (p.checkFacts fuel ctl th)) := by
  unfold checkFactsD checkFactsAsserts checkFacts
  cases p.thrs[th]? with
  | none => rfl
  | some t =>
    simp only
    split
    · rw [S.solveD_eq, guardD_bind]
      congr 1
      cases S.solve ctl fuel t.slv (p.factSpan t) <;> rfl
    · rfl

/-- solving.cc:1135-1152 the second part of `check`. -/
def checkObjD (extra : Bool) (fuel : Nat) (ctl : Ctl) (total : Bool) (th : Nat) (p : Propagator V) : D (Propagator V × Bool) :=
  match p.thrs[th]? with
  | none => .error .noResult
  | some t => do
    let r ← t.slv.checkObjD extra ctl fuel total p.obj
    pure (p.setThr th { t with slv := r.1 }, r.2)

/-- solving.cc:1124-1152 `check` in a build with assertions. -/
def checkD (extra : Bool) (fuel : Nat) (ctl : Ctl) (total : Bool) (th : Nat) (p : Propagator V) : D (Propagator V × Bool) := do
  let r ← p.checkFactsD extra fuel ctl th
  if r.2 then r.1.checkObjD extra fuel ctl total th else pure r

theorem checkD_eq (extra : Bool) (fuel : Nat) (ctl : Ctl) (total : Bool) (th : Nat) (p : Propagator V) :
    p.checkD extra fuel ctl total th = guardD (p.checkAsserts extra fuel ctl total th) (ofOption (p.check fuel ctl total th)) := by
  unfold checkD checkAsserts check
  rw [checkFactsD_eq, guardD_bind, ← guardD_guardD]
  congr 1
  cases p.checkFacts fuel ctl th with
  | none => rfl
  | some r =>
    obtain ⟨q, ok⟩ := r
    cases ok with
    | false => rfl
    | true =>
      change q.checkObjD extra fuel ctl total th = guardD _ (ofOption (q.checkObj fuel ctl total th))
      unfold checkObjD checkObj
      simp only [if_true]
      cases q.thrs[th]? with
      | none => rfl
      | some t =>
        simp only [S.checkObjD_eq, guardD_bind]
        congr 1
        cases S.checkObj ctl fuel total q.obj t.slv <;> rfl

/-- solving.cc:1166-1169 `undo` in a build with assertions. -/
def undoD (extra : Bool) (th : Nat) (p : Propagator V) : D (Propagator V) :=
  match p.thrs[th]? with
  | none => .error .noResult
  | some t => do
    let s ← t.slv.undoD extra
    pure (p.setThr th { t with slv := s })

theorem undoD_eq (extra : Bool) (th : Nat) (p : Propagator V) :
    p.undoD extra th = guardD (p.undoAsserts extra th) (ofOption (p.undo th)) := by
  unfold undoD undoAsserts undo
  cases p.thrs[th]? with
  | none => rfl
  | some t => simp only [S.undoD_eq, guardD_bind, pure_bindD]; rfl

end Propagator
end
end Lpx
