import Verif.Tarjan

/-!
# Nullability and left corners

Model of /repo/leftrec.go.
-/

namespace Verif

mutual
/-- `elemNullable` (/repo/leftrec.go:66-79); `null` is the list of folded names marked so far. -/
def elemNullable (null : List Str) : Elem → Bool
  | .option _ => true
  | .group a => altNullable null a
  | .rulename n => decide (canon n ∈ null)
  | .charVal _ vs => vs.isEmpty
  | .numVal .. => false
  | .proseVal .. => false
/-- `repNullable` (/repo/leftrec.go:59-64). -/
def repNullable (null : List Str) : Rep → Bool
  | ⟨mn, _, e⟩ => mn == 0 || elemNullable null e
/-- The inner loop of `altNullable` (/repo/leftrec.go:45-51). -/
def concatNullable (null : List Str) : List Rep → Bool
  | [] => true
  | r :: c => repNullable null r && concatNullable null c
/-- `altNullable` (/repo/leftrec.go:43-57). -/
def altNullable (null : List Str) : List (List Rep) → Bool
  | [] => false
  | c :: a => concatNullable null c || altNullable null a
end

/-- The map `rules` of `nullableRules` (/repo/leftrec.go:19-29): the rule of each name of the grammar and of the core
rules, keyed by folded name.  `names` lists the names in the order visited; a key is written once or, with the same
value, again. -/
def resolvedRules (g : Grammar) (names : List Str) : List (Str × Rule) :=
  (names.filterMap fun n => (getRule n g.rules).map fun r => (canon r.name, r)).foldl
    (fun m p => if p.1 ∈ m.map Prod.fst then m else m ++ [p]) []

/-- One pass over `rules` (/repo/leftrec.go:33-38), in the given order; the Boolean is `changed`. -/
def nullPass : List (Str × Rule) → List Str → List Str × Bool
  | [], null => (null, false)
  | (k, r) :: rs, null =>
    if k ∉ null ∧ altNullable null r.alt = true then ((nullPass rs (null ++ [k])).1, true)
    else nullPass rs null

/-- The outer loop (/repo/leftrec.go:31-39): at each pass the map is iterated in the order `sched` gives. -/
def nullLoop (sched : Nat → List (Str × Rule) → List (Str × Rule)) (rules : List (Str × Rule)) :
    Nat → Nat → List Str → Run (List Str)
  | 0, _, _ => .fuel
  | n + 1, t, null =>
    match nullPass (sched t rules) null with
    | (null', true) => nullLoop sched rules n (t + 1) null'
    | (null', false) => .ok null'

/-- `nullableRules` (/repo/leftrec.go:18-41); the fuel always suffices (`C23_terminates`). -/
def nullableRules (sched : Nat → List (Str × Rule) → List (Str × Rule)) (g : Grammar) (names : List Str) : Run (List Str) :=
  nullLoop sched (resolvedRules g names) ((resolvedRules g names).length + 1) 0 []

mutual
/-- `addElem` of `leftCornerDeps` (/repo/leftrec.go:136-145). -/
def lcElem (null : List Str) (deps : List Str) : Elem → List Str
  | .rulename n => appendDeps deps [canon n]
  | .group a => lcAlt null deps a
  | .option a => lcAlt null deps a
  | .charVal .. => deps
  | .numVal .. => deps
  | .proseVal .. => deps
/-- The element of a repetition. -/
def lcRep (null : List Str) (deps : List Str) : Rep → List Str
  | ⟨_, _, e⟩ => lcElem null deps e
/-- The inner loop of `addAlt` (/repo/leftrec.go:148-154). -/
def lcConcat (null : List Str) (deps : List Str) : List Rep → List Str
  | [] => deps
  | r :: c => if repNullable null r then lcConcat null (lcRep null deps r) c else lcRep null deps r
/-- `addAlt` (/repo/leftrec.go:146-156). -/
def lcAlt (null : List Str) (deps : List Str) : List (List Rep) → List Str
  | [] => deps
  | c :: a => lcAlt null (lcConcat null deps c) a
end

/-- `leftCornerDeps` (/repo/leftrec.go:133-159). -/
def leftCornerDeps (null : List Str) (a : Alt) : List Str := lcAlt null [] a

/-- The graph `lc` (/repo/leftrec.go:89-106), rules added in the order of `names`, the first writer of a key wins. -/
def leftCornerGraph (null : List Str) (g : Grammar) (names : List Str) : Depgraph :=
  (resolvedRules g names).map fun p => (p.1, ⟨p.2.name, leftCornerDeps null p.2.alt⟩)

/-- The test on components of size one (/repo/leftrec.go:118-120). -/
def selfCorner (dg : Depgraph) : List Str → Bool
  | [] => false
  | x :: _ => decide (x ∈ dgDeps dg x)

/-- The map `out` (/repo/leftrec.go:111-127): later components overwrite earlier ones. -/
def leftRecMap (dg : Depgraph) : List (List Str) → List (Str × List Str) → List (Str × List Str)
  | [], m => m
  | scc :: rest, m =>
    if decide (scc.length > 1) || selfCorner dg scc then
      leftRecMap dg rest ((scc.map fun x => (x, scc)) ++ m)
    else leftRecMap dg rest m

/-- The iteration orders of one call of `leftRecursiveSCCs`: of the rules at each pass of `nullableRules`, of the names
when the two maps are filled, and of the graph in the component finder. -/
structure LOrders where
  pass : Nat → List (Str × Rule) → List (Str × Rule)
  names : List Str
  names' : List Str
  order : List Str → List Str

/-- Every iteration visits each entry once. -/
structure LOrders.Fair (o : LOrders) (g : Grammar) : Prop where
  pass : ∀ t l, (o.pass t l).Perm l
  names : o.names.Perm (g.rules.map Rule.name ++ Core.rules.map Rule.name)
  names' : o.names'.Perm (g.rules.map Rule.name ++ Core.rules.map Rule.name)
  order : ∀ l, (o.order l).Perm l

/-- `leftRecursiveSCCs` (/repo/leftrec.go:85-128). -/
def leftRecursiveSCCs (o : LOrders) (g : Grammar) : Run (List (Str × List Str)) :=
  match nullableRules o.pass g o.names with
  | .panic => .panic
  | .fuel => .fuel
  | .ok null =>
    match findSCCs (leftCornerGraph null g o.names') (o.order ((leftCornerGraph null g o.names').map Prod.fst)) with
    | .panic => .panic
    | .fuel => .fuel
    | .ok sccs => .ok (leftRecMap (leftCornerGraph null g o.names') sccs [])

end Verif
