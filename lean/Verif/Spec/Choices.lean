import Verif.Spec.Compile
import Verif.Spec.Derivation
/-!
Which choices a rule leaves open, and in which order of preference; what belongs together. A word with
choices is a word of the rule in which the number of the alternative taken stands before what comes
out of it, for every object that offers two or more; and in which before the parts of a sequence, unless
there is just one, stands how many there are and which of them is the main one; before the words of a
dictionary line stands the line. This is said about the rule objects a user builds.
-/
namespace Yargy

variable {P : Type}

/-- What is noted in a word besides its predicates: the number of an alternative, or that the so many
parts that follow belong together, with the number of the main one, or that what follows stands for a
line of a dictionary. -/
inductive Note where
  | alt (i : Nat)
  | head (parts main : Nat)
  | line (v : Str)
  deriving DecidableEq

/-- A word with choices is made of predicates and notes. -/
inductive Mark (P : Type) where
  | pred (p : P)
  | note (x : Note)
  deriving DecidableEq

/-- A part of a rule: a predicate, a rule, or a note. -/
inductive Piece (P : Type) where
  | pred (p : P)
  | rule (a : Nat)
  | note (x : Note)
  deriving DecidableEq

/-- A term is a part. -/
def Term.part : Term P → Piece P
  | .pred p => .pred p
  | .rule a => .rule a

/-- The number of the alternative, if there is a choice. -/
def choiceOf (n i : Nat) : List (Piece P) := if n ≤ 1 then [] else [.note (.alt i)]

/-- The number of parts and that of the main one, unless there is just one part. -/
def groupOf (n main : Nat) : List Note := if n = 1 then [] else [.head n main]

/-- The same for the words of a line of a dictionary, or of none. -/
def entryOf (line : Option Str) (n main : Nat) : List Note := (line.map .line).toList ++ groupOf n main

/-- The part that a place in a pattern stands for: a note, or the repeated rule. -/
def partAt (r : Nat) : Option Note → Piece P
  | none => .rule r
  | some x => .note x

/-- The parts that a pattern stands for. -/
def fill (r : Nat) (pat : List (Option Note)) : List (Piece P) := pat.map (partAt r)

/-- The numbers of "go on" and "this is the last one". -/
def goOn (reverse : Bool) : Nat := if reverse then 1 else 0
def lastOne (reverse : Bool) : Nat := if reverse then 0 else 1

/-- One or more repetitions. Before each one it is decided whether another one follows: if so, the item and
the rest are two parts. -/
inductive Laps (reverse : Bool) : List (Option Note) → Prop
  | last : Laps reverse [some (.alt (lastOne reverse)), none]
  | more {pat} : Laps reverse pat →
      Laps reverse (some (.alt (goOn reverse)) :: some (.head 2 0) :: none :: pat)

/-- One to so many repetitions. There is nothing to decide when no further one is allowed. -/
inductive LapsUpTo (reverse : Bool) : Nat → List (Option Note) → Prop
  | one : LapsUpTo reverse 1 [none]
  | last {n} : LapsUpTo reverse (n + 2) [some (.alt (lastOne reverse)), none]
  | more {n pat} : LapsUpTo reverse (n + 1) pat →
      LapsUpTo reverse (n + 2) (some (.alt (goOn reverse)) :: some (.head 2 0) :: none :: pat)

/-- Nothing or once. -/
inductive Perhaps (reverse : Bool) : List (Option Note) → Prop
  | skip : Perhaps reverse [some (.alt (if reverse then 1 else 0)), some (.head 0 0)]
  | take : Perhaps reverse [some (.alt (if reverse then 0 else 1)), none]

/-- The numbers of "nothing (more)", "go on" and "this is the last one" where something is both
optional and repeatable. -/
def starStop (_ ro : Bool) : Nat := if ro then 2 else 0
def starMore (rr ro : Bool) : Nat :=
  if ro then (if rr then 1 else 0) else (if rr then 2 else 1)
def starLast (rr ro : Bool) : Nat :=
  if ro then (if rr then 0 else 1) else (if rr then 1 else 2)

/-- Any number of repetitions. -/
inductive Star (rr ro : Bool) : List (Option Note) → Prop
  | stop : Star rr ro [some (.alt (starStop rr ro)), some (.head 0 0)]
  | last : Star rr ro [some (.alt (starLast rr ro)), none]
  | more {pat} : Star rr ro pat →
      Star rr ro (some (.alt (starMore rr ro)) :: some (.head 2 0) :: none :: pat)

/-- So many repetitions before something, all of them parts of one sequence. -/
def Behind (n : Nat) (L : List (Option Note) → Prop) (pat : List (Option Note)) : Prop :=
  ∃ p, L p ∧ pat = (groupOf (n + 1) 0).map some ++ List.replicate n none ++ p

/-- What a quantifier repeats. -/
def Obj.repeats : Obj P → Option Nat
  | .optional r _ => some r
  | .repeatable r _ => some r
  | .repOptional r _ _ => some r
  | .minBounded r _ _ => some r
  | .maxBounded r _ _ => some r
  | .minMaxBounded r _ _ _ => some r
  | _ => none

/-- What an object may be replaced by, with the choice made. -/
inductive Deals : Obj P → List (Piece P) → Prop
  | prod {ts m} : Deals (.prod ts m) ((groupOf ts.length m).map .note ++ ts.map Term.part)
  | emptyProd : Deals .emptyProd [.note (.head 0 0)]
  | pipeProd {v ts} : Deals (.pipeProd v ts) ((entryOf (some v) ts.length 0).map .note ++ ts.map .pred)
  | rule {ps : List Nat} {i p : Nat} : ps[i]? = some p →
      Deals (.rule ps) (choiceOf ps.length i ++ [.rule p])
  | or {rs : List Nat} {i r : Nat} : rs[i]? = some r →
      Deals (.or rs) (choiceOf rs.length i ++ [.rule r])
  | optional {r v pat} : Perhaps v pat → Deals (.optional r v) (fill r pat)
  | repeatable {r v pat} : Laps v pat → Deals (.repeatable r v) (fill r pat)
  | repOptional {r v u pat} : Star v u pat → Deals (.repOptional r v u) (fill r pat)
  | minBounded {r min v pat} : Behind (min - 1) (Laps v) pat → Deals (.minBounded r min v) (fill r pat)
  | maxBounded {r max v pat} : LapsUpTo v max pat → Deals (.maxBounded r max v) (fill r pat)
  | minMaxBounded {r min max v pat} : Behind (min - 1) (LapsUpTo v (max - min + 1)) pat →
      Deals (.minMaxBounded r min max v) (fill r pat)
  | named {r n} : Deals (.named r n) [.rule r]
  | interp {r i} : Deals (.interp r i) [.rule r]
  | relation {r x} : Deals (.relation r x) [.rule r]
  | forward {r} : Deals (.forward (some r)) [.rule r]
  | empty : Deals .empty [.note (.head 0 0)]
  | pipe {kind} {keys : List (Str × List P)} {i : Nat} {key : Str × List P} : keys[i]? = some key →
      Deals (.pipe (.keys kind keys))
        (choiceOf keys.length i ++ ((entryOf (some key.1) key.2.length 0).map .note ++ key.2.map .pred))
  | bnf {ps : List Nat} {n i r kind} {j p : Nat} : ps[j]? = some p →
      Deals (.bnf ps n i r kind) (choiceOf ps.length j ++ [.rule p])

/-- The words with choices of a sequence of parts. -/
inductive Tells (h : Heap P) : List (Piece P) → List (Mark P) → Prop
  | nil : Tells h [] []
  | pred {p ts w} : Tells h ts w → Tells h (.pred p :: ts) (.pred p :: w)
  | note {x ts w} : Tells h ts w → Tells h (.note x :: ts) (.note x :: w)
  | rule {a o us ts w v} : h[a]? = some o → Deals o us → Tells h us w → Tells h ts v →
      Tells h (.rule a :: ts) (w ++ v)

/-- What an object may be replaced by in a context, with the choice made. -/
inductive Offers (A : Activation P) : Obj P → List (Piece P) → Prop
  | prod {ts us m} : ActivatedAll A ts us →
      Offers A (.prod ts m) ((groupOf us.length m).map .note ++ us.map Term.part)
  | line {kind} {lines : List Str} {i : Nat} {l : Str} {ps : List P} : lines[i]? = some l →
      A.key kind l = .ok ps →
      Offers A (.pipe (.scheme kind lines))
        (choiceOf lines.length i ++ ((entryOf (some l) ps.length 0).map .note ++ ps.map .pred))
  | other {o us} : (∀ ts m, o ≠ .prod ts m) → Deals o us → Offers A o us

/-- The words with choices of a sequence of parts in a context. -/
inductive Picks (A : Activation P) (h : Heap P) : List (Piece P) → List (Mark P) → Prop
  | nil : Picks A h [] []
  | pred {p ts w} : Picks A h ts w → Picks A h (.pred p :: ts) (.pred p :: w)
  | note {x ts w} : Picks A h ts w → Picks A h (.note x :: ts) (.note x :: w)
  | rule {a o us ts w v} : h[a]? = some o → Offers A o us → Picks A h us w → Picks A h ts v →
      Picks A h (.rule a :: ts) (w ++ v)

/-- The choices in a word. -/
def alts : List (Mark P) → List Nat
  | [] => []
  | .note (.alt i) :: w => i :: alts w
  | _ :: w => alts w

/-- The tokens `i, …, j-1` fit a word with choices. -/
inductive Suits (accepts : P → Token → Bool) (toks : List Token) :
    List (Mark P) → Nat → Nat → Prop
  | nil {i} : Suits accepts toks [] i i
  | pred {p w t i j} : toks[i]? = some t → accepts p t = true → Suits accepts toks w (i + 1) j →
      Suits accepts toks (.pred p :: w) i j
  | note {x w i j} : Suits accepts toks w i j → Suits accepts toks (.note x :: w) i j

/-- What a quantifier put directly on a quantifier stands for, as in `.repeatable().optional()`: something
both optional and repeatable; or, if the two are the same, the outer one. -/
def Obj.on : Obj P → Obj P → Option (Obj P)
  | .optional _ v, .repeatable g u => some (.repOptional g u v)
  | .repeatable _ v, .optional g u => some (.repOptional g v u)
  | .optional _ v, .optional g _ => some (.optional g v)
  | .repeatable _ v, .repeatable g _ => some (.repeatable g v)
  | _, _ => none

/-- An object, with a quantifier on a quantifier read as what it stands for. -/
def Obj.settled (h : Heap P) (o : Obj P) : Obj P :=
  match o.repeats.bind (h[·]?) with
  | some q => (o.on q).getD o
  | none => o

/-- The same objects, with quantifiers on quantifiers read as what they stand for. -/
def settle (h : Heap P) : Heap P := h.map (Obj.settled h)

/-- No quantifier is put directly on a quantifier. -/
def Single (h : Heap P) : Prop :=
  ∀ o ∈ h, ∀ (c : Nat) (q : Obj P), o.repeats = some c → h[c]? = some q → q.repeats = none

/-- What kind of gazetteer a pipeline is. -/
def Pipe.kind : Pipe P → PipeKind
  | .scheme d _ => d
  | .keys d _ => d

/-- No gazetteer that looks words up by their normal forms: a word may have several of them, and Python
goes through them in no particular order. -/
def Obj.orderly : Obj P → Prop
  | .pipe p => p.kind ≠ .morph
  | .bnf _ _ _ _ d => d ≠ some .morph
  | _ => True

/-- A line of a gazetteer that was compiled for another parser. -/
def Obj.entry : Obj P → Bool
  | .pipeProd _ _ => true
  | _ => false

/-- What is asked of the objects of a rule. -/
structure Orderly (h : Heap P) (root : Nat) : Prop where
  bounds : ∀ (x : Nat) o, Reach h root x → h[x]? = some o → o.bounds
  single : ∀ (x : Nat) o, Reach h root x → h[x]? = some o → ∀ (c : Nat) (q : Obj P),
    o.repeats = some c → h[c]? = some q → q.repeats = none
  orderly : ∀ (x : Nat) o, Reach h root x → h[x]? = some o → o.orderly
  fresh : ∀ (x : Nat) o, Reach h root x → h[x]? = some o → o.entry = false

/-- At the first place where two lists of choices differ the first one takes the alternative listed
earlier. -/
inductive Sooner : List Nat → List Nat → Prop
  | here {x y xs ys} : x < y → Sooner (x :: xs) (y :: ys)
  | later {x xs ys} : Sooner xs ys → Sooner (x :: xs) (x :: ys)

mutual
/-- The word with choices that a derivation shows: where a rule has two or more productions, the number
of the production that was used; where the production stands for a line of a dictionary, this line; where a
node has not just one child, the number of children and that of the main one. -/
def marks {T : Type} (G : Grammar P T) : Spec.DTree P T → List (Mark P)
  | .leaf p _ => [.pred p]
  | .node r prod cs =>
    (if (G.productions r).length ≤ 1 then []
      else [.note (.alt ((G.productions r).findIdx (fun p => p.id == prod.id)))]) ++
      ((entryOf prod.key cs.length prod.main).map .note ++ marksAll G cs)
def marksAll {T : Type} (G : Grammar P T) : List (Spec.DTree P T) → List (Mark P)
  | [] => []
  | c :: cs => marks G c ++ marksAll G cs
end

/-- Repetitions, with the decisions to go on or not. -/
def lapMarks (reverse : Bool) : List (List (Mark P)) → List (Mark P)
  | [] => []
  | [w] => .note (.alt (lastOne reverse)) :: w
  | w :: z :: ws => .note (.alt (goOn reverse)) :: .note (.head 2 0) :: (w ++ lapMarks reverse (z :: ws))

/-- Repetitions of which so many are allowed after the first one. -/
def lapMarksUpTo (reverse : Bool) : Nat → List (List (Mark P)) → List (Mark P)
  | _, [] => []
  | 0, w :: _ => w
  | _ + 1, [w] => .note (.alt (lastOne reverse)) :: w
  | n + 1, w :: z :: ws =>
    .note (.alt (goOn reverse)) :: .note (.head 2 0) :: (w ++ lapMarksUpTo reverse n (z :: ws))

/-- A repetition: of what, reversed or not, how often at least, how often at most. -/
def Obj.repetition : Obj P → Option (Nat × Bool × Nat × Option Nat)
  | .repeatable r v => some (r, v, 1, none)
  | .minBounded r min v => some (r, v, min, none)
  | .maxBounded r max v => some (r, v, 1, some max)
  | .minMaxBounded r min max v => some (r, v, min, some max)
  | _ => none

/-- The word with choices of some repetitions: only where one may stop there is something to decide. -/
def rounds (reverse : Bool) (least : Nat) (most : Option Nat) (us : List (List (Mark P))) : List (Mark P) :=
  (groupOf least 0).map .note ++ (us.take (least - 1)).flatten ++
    match most with
    | none => lapMarks reverse (us.drop (least - 1))
    | some m => lapMarksUpTo reverse (m - least) (us.drop (least - 1))

/-- Repetitions of something both optional and repeatable, with the decisions; at the end there may be one
to have nothing more. -/
def starMarks (rr ro : Bool) : Bool → List (List (Mark P)) → List (Mark P)
  | true, [] => [.note (.alt (starStop rr ro)), .note (.head 0 0)]
  | false, [] => []
  | false, [w] => .note (.alt (starLast rr ro)) :: w
  | e, w :: ws => .note (.alt (starMore rr ro)) :: .note (.head 2 0) :: (w ++ starMarks rr ro e ws)

/-- A word starts with another one: before it nothing but numbers of parts. -/
def Starts (w v post : List (Mark P)) : Prop :=
  ∃ heads : List (Nat × Nat), w = heads.map (fun x => .note (.head x.1 x.2)) ++ (v ++ post)

/-- A rule starts with another one: nothing comes before it, nothing is to be chosen before it. -/
inductive Leads (h : Heap P) : Nat → Nat → Prop
  | self {a} : Leads h a a
  | rule {a p q : Nat} : h[a]? = some (.rule [p]) → Leads h p q → Leads h a q
  | prod {a r q : Nat} {ts m} : h[a]? = some (.prod (.rule r :: ts) m) → Leads h r q → Leads h a q
  | named {a r q : Nat} {n} : h[a]? = some (.named r n) → Leads h r q → Leads h a q
  | interp {a r q : Nat} {i} : h[a]? = some (.interp r i) → Leads h r q → Leads h a q
  | relation {a r q : Nat} {x} : h[a]? = some (.relation r x) → Leads h r q → Leads h a q
  | forward {a r q : Nat} : h[a]? = some (.forward (some r)) → Leads h r q → Leads h a q

end Yargy
