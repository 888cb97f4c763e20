import Verif.Model.Notes
import Verif.Spec.Accepted
/-
What the notes on stderr should be about (C131): names that a file declares although it has declared them before, or a file that it
includes has, and entries of an include pattern that cannot be read.
-/
namespace Dinero

/-- A name in lower case, with what it is the name of. -/
inductive Announced where
  | account (n : Str)
  | commodity (n : Str)
  | payee (n : Str)
  deriving DecidableEq

/-- What an item declares; `inside` is what the files of an include directive declare. -/
def Block.declares (lower : Str → Str) (inside : Str → List Announced) : Block → List Announced
  | .account a => [.account (lower a.name)]
  | .commodity c => [.commodity (lower c.name)]
  | .payee p => [.payee (lower p.name)]
  | .incl x => inside x
  | _ => []

/-- What is noted at an item when these names are known; `told` is what is noted about the files of an include directive. -/
def Block.noted (lower : Str → Str) (told : Str → List Note) (known : List Announced) : Block → List Note
  | .account a => if .account (lower a.name) ∈ known then [.account a] else []
  | .commodity c => if .commodity (lower c.name) ∈ known then [.commodity c] else []
  | .payee p => if .payee (lower p.name) ∈ known then [.payee p] else []
  | .incl x => told x
  | _ => []

/-- What is noted at these items, after the ones before them. -/
def notedAll (lower : Str → Str) (inside : Str → List Announced) (told : Str → List Note) : List Block → List Block → List Note
  | _, [] => []
  | before, b :: bs => b.noted lower told (before.flatMap (Block.declares lower inside)) ++ notedAll lower inside told (before ++ [b]) bs

/-- The entries that cannot be read, from this number on. -/
def unreadable (pattern : Str) : Nat → List (Option Str) → List Note
  | _, [] => []
  | n, none :: es => .entry pattern n :: unreadable pattern (n + 1) es
  | n, some _ :: es => unreadable pattern (n + 1) es

/-- A file, with the files it includes, declares these names, and these are the notes about it.  A file does not know what the files that
include it have declared. -/
inductive Tells (env : Env) (fs : Files) : List Str → Str → List Announced → List Note → Prop
  | mk {seen : List Str} {file text : Str} {bs : List Block} (pattern : Str → Str) (entries : Str → List (Option Str))
      (names : Str → List Announced) (notes : Str → List Note) :
      fs.read file = some text → TakesJournal env text bs →
      (∀ x, .incl x ∈ bs → ∃ dir, fs.parent file = some dir ∧ pattern x = (if dir = [] then ['.'] else dir) ++ '/' :: x ∧
        fs.glob (pattern x) = some (entries x)) →
      (∀ x, .incl x ∈ bs → ∀ f, some f ∈ entries x → Tells env fs (file :: seen) f (names f) (notes f)) →
      Tells env fs seen file (bs.flatMap (Block.declares env.lower (fun x => ((entries x).filterMap id).flatMap names)))
        (notedAll env.lower (fun x => ((entries x).filterMap id).flatMap names)
          (fun x => unreadable (pattern x) 0 (entries x) ++ ((entries x).filterMap id).flatMap notes) [] bs)

end Dinero
