import Verif.Model.Basic
/-!
The cache of `CachedMorphAnalyzer` (`yargy/morph.py:136-143`):
`lru_cache(CACHE_SIZE)(MorphAnalyzer.__call__)`, that is `functools.lru_cache` of the Python standard
library around a function of two arguments, the analyzer and the word.
-/
namespace Yargy

variable {K V : Type} [DecidableEq K]

/-- `CACHE_SIZE` (`yargy/morph.py:136`). -/
def cacheSize : Nat := 10000

/-- The cache: keys (analyzer and word) with their values, most recently used first. -/
abbrev Cache (K V : Type) := List (K × V)

/-- The value stored for a key. -/
def Cache.get (c : Cache K V) (k : K) : Option V := (c.find? (fun e => decide (e.1 = k))).map Prod.snd

/-- The cache without a key. -/
def Cache.drop (c : Cache K V) (k : K) : Cache K V := c.filter (fun e => !decide (e.1 = k))

/-- One call of the wrapped function (`functools.lru_cache` with a positive `maxsize`, used at
`yargy/morph.py:143`): a stored answer is moved to the front and returned; otherwise `f` is called; if
it raises nothing is stored, else the answer is stored in front, and if the cache was full the entry
at the back is given up. -/
def lruCall (size : Nat) (f : K → Except Err V) (c : Cache K V) (k : K) : Except Err V × Cache K V :=
  match c.get k with
  | some v => (.ok v, (k, v) :: c.drop k)
  | none =>
    match f k with
    | .error e => (.error e, c)
    | .ok v => (.ok v, (k, v) :: (if c.length < size then c else c.dropLast))

/-- A history of calls: the answers and the cache at the end. -/
def lruCalls (size : Nat) (f : K → Except Err V) : Cache K V → List K → List (Except Err V) × Cache K V
  | c, [] => ([], c)
  | c, k :: ks =>
    let (v, c') := lruCall size f c k
    let (vs, c'') := lruCalls size f c' ks
    (v :: vs, c'')

end Yargy
