import Verif.Model.Query
import Verif.Spec.Grammar
/-
What a query means: terms with the keywords in front of them; the words of a rule text.
-/
namespace Dinero

/-- The words with a special meaning in a query. -/
def IsKeyword (t : Str) : Prop := t = "and".toList ∨ t = "or".toList ∨ t = "expr".toList

instance (t : Str) : Decidable (IsKeyword t) := inferInstanceAs (Decidable (_ ∨ _ ∨ _))

/-- A term of a query with the keywords that precede it. -/
structure QueryTerm where
  kws : List Str
  term : Str

/-- The words a list of query terms was written with. -/
def QueryTerm.words (q : QueryTerm) : List Str := q.kws ++ [q.term]

/-- How a term is wrapped: verbatim after `expr`, otherwise according to its sigil. -/
inductive Wraps : QueryTerm → Str → Prop
  | expr {q : QueryTerm} : "expr".toList ∈ q.kws → Wraps q q.term
  | payee {kws : List Str} {r : Str} : "expr".toList ∉ kws →
      Wraps ⟨kws, '@' :: r⟩ ("payee =~ /(?i)".toList ++ r ++ "/".toList)
  | tag {kws : List Str} {r : Str} : "expr".toList ∉ kws →
      Wraps ⟨kws, '%' :: r⟩ ("has_tag(/(?i)".toList ++ r ++ "/)".toList)
  | regex {kws : List Str} {r : Str} : "expr".toList ∉ kws →
      Wraps ⟨kws, '/' :: r⟩ ("account =~ /".toList ++ r)
  | account {kws : List Str} {c : Char} {r : Str} : "expr".toList ∉ kws → c ≠ '@' → c ≠ '%' → c ≠ '/' →
      Wraps ⟨kws, c :: r⟩ ("account =~ /(?i)".toList ++ c :: r ++ "/".toList)

/-- The connective in front of a term that is not the first: `and` if the last of the preceding `and`,
`or` keywords is `and`. -/
def QueryTerm.connective (q : QueryTerm) : Str :=
  if (q.kws.filter (· ≠ "expr".toList)).getLast? = some "and".toList then " and ".toList
  else " or ".toList

/-- The text written for a list of terms: each one wrapped and in parentheses, joined by the
connectives. -/
inductive QueryText : List QueryTerm → Str → Prop
  | nil : QueryText [] []
  | one {q : QueryTerm} {w : Str} : Wraps q w → QueryText [q] ('(' :: w ++ [')'])
  | snoc {qs : List QueryTerm} {q : QueryTerm} {s w : Str} : qs ≠ [] → QueryText qs s → Wraps q w →
      QueryText (qs ++ [q]) (s ++ q.connective ++ '(' :: w ++ [')'])

/-- A word pattern: an account pattern without sigil that needs no quoting. -/
structure PlainPattern (env : Env) (p : Str) : Prop where
  nonempty : p ≠ []
  trimmed : trim env p = p
  noKeyword : ¬ IsKeyword p
  noSigil : p.head? ≠ some '@' ∧ p.head? ≠ some '%'
  noSlash : '/' ∉ p
  compiles : env.rxOk ("(?i)".toList ++ p) = true

/-- Even numbers of quotes and of slashes: after this text we are outside strings and regexes. -/
def Outside (s : Str) : Prop := s.count '"' % 2 = 0 ∧ s.count '/' % 2 = 0

instance (s : Str) : Decidable (Outside s) := inferInstanceAs (Decidable (_ ∧ _))

/-- No blank of `s` is outside strings and regexes. -/
def Unsplit (s : Str) : Prop := ∀ a b, s = a ++ ' ' :: b → ¬ Outside a

/-- `words` are the words of the text: what is between the blanks outside strings and regexes. -/
structure IsSplit (text : Str) (words : List Str) : Prop where
  nonempty : words ≠ []
  joined : text = List.intercalate [' '] words
  unsplit : ∀ w ∈ words, Unsplit w
  closed : ∀ w ∈ words.dropLast, Outside w

end Dinero
