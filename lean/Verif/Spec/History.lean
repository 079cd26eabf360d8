import Verif.Model.Compile
import Verif.Model.Leftover
import Verif.Spec.Compile
/-!
What a program does with rules: it makes rule objects, defines forward rules and builds parsers, in any
order and any number of times; building may raise.
-/
namespace Yargy.Spec

/-- Productions, in contrast to rules. -/
def production {P : Type} : Obj P → Bool
  | .prod _ _ | .emptyProd | .pipeProd _ _ => true
  | _ => false

/-- Objects that have productions; the others have rules. -/
def hasProductions {P : Type} : Obj P → Bool
  | .rule _ | .bnf _ _ _ _ _ => true
  | _ => false

/-- There is a rule at the address. -/
def RuleAt {P : Type} (h : Heap P) (a : Nat) : Prop :=
  ∃ o, h[a]? = some o ∧ production o = false

/-- What the constructors of the library make: the parts are there and are of the right sort; compiled
rules and split gazetteers are not made by hand. -/
structure Makeable {P : Type} (h : Heap P) (o : Obj P) : Prop where
  parts : ∀ c ∈ o.children, ∃ o', h[c]? = some o' ∧ production o' = hasProductions o
  bnf : ∀ ps n i r k, o ≠ .bnf ps n i r k
  pipeProd : ∀ v ps, o ≠ .pipeProd v ps
  keys : ∀ k ks, o ≠ .pipe (.keys k ks)

/-- One thing a program may do. Different objects have different addresses while it does so. -/
inductive Act (L : Lang) (setOrder : List Str → List Str) : Heap Pred → Heap Pred → Prop
  | make {h o} : Makeable h o → Act L setOrder h (h ++ [o])
  | define {h a c r} : h[a]? = some (.forward c) → RuleAt h r →
      Act L setOrder h (h.set a (.forward (some r)))
  | build {h c split relation pid limit root b h'} : (∀ a b : Nat, pid a = pid b → a = b) →
      RuleAt h root → buildParser L setOrder c split relation pid limit root h = .ok (b, h') →
      Act L setOrder h h'
  /-- the program has caught the exception and goes on with the rules as they are then -/
  | failed {h c split relation pid limit root e} : (∀ a b : Nat, pid a = pid b → a = b) →
      RuleAt h root → buildParser L setOrder c split relation pid limit root h = .error e →
      Act L setOrder h (compileLeft (c.activation L split) pid limit root h)

/-- Any number of them. -/
inductive Run (L : Lang) (setOrder : List Str → List Str) : Heap Pred → Heap Pred → Prop
  | nil {h} : Run L setOrder h h
  | cons {h h' h''} : Act L setOrder h h' → Run L setOrder h' h'' → Run L setOrder h h''

/-- What a program may do if only parsers with some tokenizers are built. -/
inductive ActWith (L : Lang) (setOrder : List Str → List Str) (allowed : Context → (Str → List Str) → Prop) :
    Heap Pred → Heap Pred → Prop
  | make {h o} : Makeable h o → ActWith L setOrder allowed h (h ++ [o])
  | define {h a c r} : h[a]? = some (.forward c) → RuleAt h r →
      ActWith L setOrder allowed h (h.set a (.forward (some r)))
  | build {h c split relation pid limit root b h'} : (∀ a b : Nat, pid a = pid b → a = b) →
      RuleAt h root → allowed c split →
      buildParser L setOrder c split relation pid limit root h = .ok (b, h') →
      ActWith L setOrder allowed h h'
  | failed {h c split relation pid limit root e} : (∀ a b : Nat, pid a = pid b → a = b) →
      RuleAt h root → allowed c split →
      buildParser L setOrder c split relation pid limit root h = .error e →
      ActWith L setOrder allowed h (compileLeft (c.activation L split) pid limit root h)

inductive RunWith (L : Lang) (setOrder : List Str → List Str) (allowed : Context → (Str → List Str) → Prop) :
    Heap Pred → Heap Pred → Prop
  | nil {h} : RunWith L setOrder allowed h h
  | cons {h h' h''} : ActWith L setOrder allowed h h' → RunWith L setOrder allowed h' h'' →
      RunWith L setOrder allowed h h''

/-- Two tokenizers are the same for an object: they activate its predicates and read its gazetteer lines
in the same way. -/
structure SameFor (L : Lang) (c : Context) (split : Str → List Str) (c' : Context) (split' : Str → List Str)
    (o : Obj Pred) : Prop where
  preds : ∀ ts m, o = .prod ts m → ∀ p : Pred, .pred p ∈ ts → p.activate c' = p.activate c
  lines : ∀ k ls, o = .pipe (.scheme k ls) → ∀ l ∈ ls, pipeKey L c' split' k l = pipeKey L c split k l

/-- What the chart parser can work with: rules whose productions are productions, productions whose
terms are compiled rules and predicates that can be asked. -/
inductive FitFor (ask : Pred → Prop) (h : Heap Pred) : Obj Pred → Prop
  | bnf {ps n i r k} : (∀ p ∈ ps, ∃ o, h[p]? = some o ∧ production o = true) →
      FitFor ask h (.bnf ps n i r k)
  | prod {ts m} : (∀ x, .rule x ∈ ts → ∃ ps n i r k, h[x]? = some (.bnf ps n i r k)) →
      (∀ p, .pred p ∈ ts → ask p) → FitFor ask h (.prod ts m)
  | emptyProd : FitFor ask h .emptyProd
  | pipeProd {v ps} : (∀ p ∈ ps, ask p) → FitFor ask h (.pipeProd v ps)

/-- A predicate that can be asked about any token: it is no scheme, and none is inside it. -/
def Askable (L : Lang) (p : Pred) : Prop := ∀ t, p.call L t ≠ .error .notImplemented

end Yargy.Spec
