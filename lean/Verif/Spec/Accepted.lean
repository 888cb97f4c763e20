import Verif.Spec.Trouble
/-
What the characters of a journal that is accepted stand for (C130).  Unlike `Spec/Journal.lean`, which says how a journal should be
written, this covers everything the program accepts.  A relation `Takes.. text x rest` says that `text` begins with something
that stands for `x`, and `rest` is what comes after it.
-/
namespace Dinero

/-- White space, line breaks included. -/
def White (env : Env) (s : Str) : Prop := ∀ c ∈ s, env.ws c = true

/-- A line, without its line break. -/
def TakesLine (text line rest : Str) : Prop :=
  '\n' ∉ line ∧ (text = line ++ '\n' :: rest ∨ (text = line ∧ rest = []))

/-! ### Amounts -/

/-- A number: with a minus sign after a point, it is shifted once more. -/
inductive ReadsNumber : Str → Rat → Prop
  | plain {s : Str} {q : Rat} : WritesNumber s q → ReadsNumber s q
  | shifted {d : Str} : (∀ c ∈ d, '0' ≤ c ∧ c ≤ '9') → d ≠ [] →
      ReadsNumber ('.' :: '-' :: d) (-unsignedVal d / (10 ^ (d.length + 1) : Nat))

/-- Here no number goes on. -/
def EndsNumber (env : Env) (follow : Str) : Prop :=
  ∀ c, follow.head? = some c → c ≠ '.' ∧ c ≠ '-' ∧ env.numeric c = false

/-- Here no blanks go on. -/
def EndsBlanks (env : Env) (follow : Str) : Prop := ∀ c, follow.head? = some c → env.ws c = true → c = '\n'

/-- A character of a word that is not in quotes. -/
def WordChar (env : Env) (c : Char) : Prop := env.ws c = false ∧ env.numeric c = false ∧ c ∉ ['.', '-', ';']

/-- A word `w`, written as `s`, before `follow`.  It loses its quotes.  If it starts with a quote, it extends to the next quote after
some other character or to the end of the line; otherwise to a character that cannot be in a word. -/
inductive ReadsWord (env : Env) : (s w follow : Str) → Prop
  | plain {s follow : Str} : s.head? ≠ some '"' → (∀ c ∈ s, WordChar env c) → (∀ c, follow.head? = some c → ¬ WordChar env c) →
      ReadsWord env s (s.filter (· != '"')) follow
  | quoted {q x follow : Str} : q ≠ [] → (∀ c ∈ q, c = '"') → x ≠ [] → '"' ∉ x → '\n' ∉ x →
      ReadsWord env (q ++ x ++ ['"']) x follow
  | unclosed {q x follow : Str} : q ≠ [] → (∀ c ∈ q, c = '"') → '"' ∉ x → '\n' ∉ x → follow = [] ∨ follow.head? = some '\n' →
      ReadsWord env (q ++ x) x follow

/-- An amount and a commodity, which can be empty, before `follow`. -/
inductive ReadsMoney (env : Env) : (s : Str) → Rat → Str → (follow : Str) → Prop
  | after {n b w c follow : Str} {q : Rat} : ReadsNumber n q → EndsNumber env (b ++ w ++ follow) → Blanks env b →
      EndsBlanks env (w ++ follow) → ReadsWord env w c follow → ReadsMoney env (n ++ b ++ w) q c follow
  | before {n b w c follow : Str} {q : Rat} : EndsNumber env (w ++ b ++ n) → EndsBlanks env (w ++ b ++ n) →
      ReadsWord env w c (b ++ n ++ follow) → Blanks env b → ReadsNumber n q → EndsNumber env follow →
      ReadsMoney env (w ++ b ++ n) q c follow

/-- Something that would have to be a number but is not: it has no digits or a minus sign in the wrong place, or there is a second point
after it. -/
def NoNumber (env : Env) (n follow : Str) : Prop :=
  (∀ c ∈ n, c = '.' ∨ NumberChar env c) ∧
    ((n.count '.' ≤ 1 ∧ EndsNumber env follow ∧ ¬ IsInteger (n.filter (· != '.'))) ∨ (n.count '.' = 1 ∧ follow.head? = some '.'))

/-- Something that would have to be an amount but is not. -/
inductive NoMoney (env : Env) : (s follow : Str) → Prop
  | number {n follow : Str} : n ≠ [] → NoNumber env n follow → NoMoney env n follow
  | word {w c b n follow : Str} : EndsNumber env (w ++ b ++ n ++ follow) → EndsBlanks env (w ++ b ++ n ++ follow) →
      ReadsWord env w c (b ++ n ++ follow) → Blanks env b → EndsBlanks env (n ++ follow) → NoNumber env n follow →
      NoMoney env (w ++ b ++ n) follow

/-! ### Postings -/

/-- What can follow the account of a posting. -/
inductive Piece where
  | field (f : Field) (q : Rat) (c : Str)
  | expr (e : Str)

/-- Where it goes. -/
def Piece.set (p : RawPosting) : Piece → RawPosting
  | .field f q c => f.set p q c
  | .expr e => { p with amountExpr := some e }

/-- Which of the values of a posting it is. -/
def Piece.slot : Piece → Nat
  | .field .amount _ _ => 0
  | .field .unitCost _ _ => 1
  | .field .totalCost _ _ => 1
  | .field .assertion _ _ => 2
  | .expr _ => 3

/-- What follows the account of a posting, up to the end of its line; `had` tells whether there has been an amount already. -/
inductive TakesPieces (env : Env) (automated : Bool) : Bool → Str → List Piece → List Str → Str → Prop
  | stop {had : Bool} {rest : Str} : rest = [] ∨ rest.head? = some '\n' → TakesPieces env automated had rest [] [] rest
  | comment {had : Bool} {text b c rest : Str} : TakesLine text (';' :: b ++ c) rest → Blanks env b →
      (∀ x, c.head? = some x → env.ws x = false) → TakesPieces env automated had text [] [c] rest
  /-- An expression that starts with a parenthesis extends to the end of the first line at which its parentheses are closed, or to a
  semicolon. -/
  | expr {had : Bool} {e b s rest : Str} {ps : List Piece} {cs : List Str} : e.head? = some '(' → ';' ∉ e →
      (∀ x y, e = x ++ '\n' :: y → x.count '(' ≠ x.count ')') →
      (b ++ s = [] ∨ (b ++ s).head? = some ';' ∨ ((b ++ s).head? = some '\n' ∧ e.count '(' = e.count ')')) →
      Blanks env b → EndsBlanks env s →
      TakesPieces env automated had s ps cs rest → TakesPieces env automated had (e ++ b ++ s) (.expr e :: ps) cs rest
  /-- A cost needs an amount before it, and an amount does not start with one of the marks. -/
  | field {had : Bool} (f : Field) {b m b' s rest c : Str} {q : Rat} {ps : List Piece} {cs : List Str} : Blanks env b →
      ReadsMoney env m q c (b' ++ s) → Blanks env b' → EndsBlanks env s → (f = .unitCost ∨ f = .totalCost → had = true) →
      (f = .amount → ∀ x ∈ ['(', '=', '@', ';'], (b ++ m).head? ≠ some x) → (f = .unitCost → (b ++ m).head? ≠ some '@') →
      TakesPieces env automated (had || f == .amount) s ps cs rest →
      TakesPieces env automated had (f.mark ++ b ++ m ++ b' ++ s) (.field f q c :: ps) cs rest
  /-- In an automated transaction, something that is no amount is dropped, and the rest of the line is an expression. -/
  | line {had : Bool} {v e r : Str} : automated = true → NoMoney env v (e ++ '\n' :: r) → '\n' ∉ v ++ e →
      (∀ x ∈ ['(', '=', '@', ';', '\n'], (v ++ e).head? ≠ some x) → v ++ e ≠ [] →
      TakesPieces env automated had (v ++ e ++ '\n' :: r) [.expr e] [] ('\n' :: r)
  /-- The same at the end of the file: its last character is then read once more. -/
  | last {had : Bool} {v e b s rest : Str} {ps : List Piece} {cs : List Str} : automated = true → NoMoney env v e → '\n' ∉ v ++ e →
      (∀ x ∈ ['(', '=', '@', ';', '\n'], (v ++ e).head? ≠ some x) → (v ++ e).getLast?.toList = b ++ s → v ++ e ≠ [] → Blanks env b →
      EndsBlanks env s → TakesPieces env automated had s ps cs rest → TakesPieces env automated had (v ++ e) (.expr e :: ps) cs rest

/-- A posting: its account, a tab or two blanks (the second of which can be a line break) and what follows. -/
inductive TakesPosting (env : Env) (automated : Bool) (payee : Option Str) : Str → RawPosting → Str → Prop
  | account {s a r : Str} {k : Kind} : WritesAccount env s a k →
      TakesPosting env automated payee (s ++ '\n' :: r) { account := a, kind := k, payee := payee } ('\n' :: r)
  | amounts {s a sep b text rest : Str} {k : Kind} {ps : List Piece} {cs : List Str} : WritesAccount env s a k →
      (sep = ['\t'] ∨ ∃ x y, sep = [x, y] ∧ env.ws x = true ∧ x ≠ '\n' ∧ x ≠ '\t' ∧ env.ws y = true) → Blanks env b →
      EndsBlanks env text → TakesPieces env automated false text ps cs rest →
      TakesPosting env automated payee (s ++ sep ++ b ++ text)
        { ps.foldl Piece.set { account := a, kind := k, payee := payee } with comments := cs } rest

/-! ### Indented lines -/

/-- White space that ends within a line, but not at its start; `within` tells whether it starts within a line. -/
def Indents (within : Bool) (w : Str) : Prop := columnOf w ≠ 0 ∨ (within = true ∧ '\n' ∉ w)

/-- Things that are indented, and the white space up to the next thing that is not.  (The `Bool` of `one` tells whether what comes after
it is within a line.) -/
inductive TakesIndented {α : Type} (env : Env) (one : Str → α → Bool → Str → Prop) : Bool → Str → List α → Str → Prop
  | done {within : Bool} {w rest : Str} : White env w → (rest = [] ∨ ¬ Indents within w) →
      (∀ c, rest.head? = some c → env.ws c = false) → TakesIndented env one within (w ++ rest) [] rest
  | cons {within next : Bool} {w s r rest : Str} {x : α} {xs : List α} : White env w → Indents within w →
      (∃ c, s.head? = some c ∧ env.ws c = false) → one s x next r → TakesIndented env one next r xs rest →
      TakesIndented env one within (w ++ s) (x :: xs) rest

/-- A line of a transaction. -/
inductive TakesTxnLine (env : Env) (automated : Bool) (payee : Option Str) : Str → TxnLine → Bool → Str → Prop
  | posting {s r : Str} {p : RawPosting} : TakesPosting env automated payee s p r →
      TakesTxnLine env automated payee s (.posting p) false r
  | comment {s b c r : Str} : TakesLine s (';' :: b ++ c) r → Blanks env b → (∀ x, c.head? = some x → env.ws x = false) →
      TakesTxnLine env automated payee s (.comment c) false r

/-- A property of a directive: comments and properties with a text extend to the end of the line, others to the next word. -/
inductive TakesProperty (env : Env) (flags words : List Str) : Str → Property → Bool → Str → Prop
  | comment {s l r : Str} : TakesLine s (';' :: l) r → TakesProperty env flags words s .comment false r
  | flag {v w b r : Str} : ReadsWord env v w (b ++ r) → w ∈ flags → Blanks env b → EndsBlanks env r →
      TakesProperty env flags words (v ++ b ++ r) (.flag w) true r
  | value {v w b s b1 x b2 r : Str} : ReadsWord env v w (b ++ s) → w ∈ words → Blanks env b → EndsBlanks env s →
      TakesLine s (b1 ++ x ++ b2) r →
      Blanks env b1 → Trimmed env x → Blanks env b2 → TakesProperty env flags words (v ++ b ++ s) (.value w x) false r

/-! ### Lines that are read with the grammar -/

/-- All the spaces there are. -/
def TakesSpaces (text rest : Str) : Prop := ∃ b, text = b ++ rest ∧ Spaces b ∧ rest.head? ≠ some ' '

/-- The inside of a quoted text: a quote in it has a backslash before it. -/
inductive Quoted (q : Char) : Str → Prop
  | nil : Quoted q []
  | quote {x : Str} : Quoted q x → Quoted q ('\\' :: q :: x)
  | char {c : Char} {x : Str} : c ≠ q → (c = '\\' → ∃ d, x.head? = some d ∧ d ≠ q) → Quoted q x → Quoted q (c :: x)

/-- A text in double or single quotes. -/
def TakesQuoted (text x rest : Str) : Prop := ∃ q, (q = '"' ∨ q = '\'') ∧ text = q :: x ++ q :: rest ∧ Quoted q x

/-- A date of the calendar, before a space or an equals sign. -/
def TakesDate (text : Str) (date : Date) (rest : Str) : Prop :=
  ∃ s y m d, text = s ++ rest ∧ WritesDate s y m d ∧ ValidDate y m d ∧ -262144 ≤ y ∧ y ≤ 262143 ∧ date = dayNumber y m d ∧
    (rest.head? = some ' ' ∨ rest.head? = some '=')

/-- Here no fraction starts. -/
def NoFraction (rest : Str) : Prop := ∀ c r, rest = '.' :: c :: r → ¬ ('0' ≤ c ∧ c ≤ '9')

/-- Here no digits go on. -/
def EndsDigits (rest : Str) : Prop := ∀ c, rest.head? = some c → ¬ ('0' ≤ c ∧ c ≤ '9')

/-- A time of day before 20:00, with its seconds and perhaps a fraction of them.  (The hours after that are written `20123`.) -/
inductive TakesTime : (text rest : Str) → Prop
  | mk {h m s f rest : Str} {nm ns : Nat} : (h = "20123".toList ∨ ∃ nh, TwoDigits h nh ∧ h.length = 2 ∧ nh < 20) →
      TwoDigits m nm → m.length = 2 → nm < 60 → TwoDigits s ns → s.length = 2 → ns < 60 →
      ((f = [] ∧ NoFraction rest) ∨ ∃ d, f = '.' :: d ∧ IsDigits d ∧ EndsDigits rest) →
      TakesTime (h ++ ':' :: m ++ ':' :: s ++ f ++ rest) rest

/-- A time of day, if there is one. -/
def TakesTimeOpt (text rest : Str) : Prop :=
  (∃ r, text = ' ' :: r ∧ TakesTime r rest) ∨ (text = rest ∧ ∀ r k, text = ' ' :: r → ¬ TakesTime r k)

/-- An effective date, if there is one. -/
inductive TakesEffective : (text : Str) → Option Date → (rest : Str) → Prop
  | none {rest : Str} : TakesEffective rest none rest
  | some {r k rest : Str} {date : Date} : TakesDate r date k → TakesTimeOpt k rest → TakesEffective ('=' :: r) (some date) rest

/-- A star or an exclamation mark, if there is one. -/
def TakesStatus (text rest : Str) : Prop :=
  text = '*' :: rest ∨ text = '!' :: rest ∨ (text = rest ∧ text.head? ≠ some '*' ∧ text.head? ≠ some '!')

/-- A quoted text in parentheses, if there is one. -/
def TakesCode (text rest : Str) : Prop :=
  (∃ r x, text = '(' :: r ∧ TakesQuoted r x (')' :: rest)) ∨ (text = rest ∧ ∀ r x k, text = '(' :: r → ¬ TakesQuoted r x (')' :: k))

/-- A description or a payee: a quoted text, with its quotes, or everything up to a bar, a semicolon or the end of the line, without the
white space around it. -/
inductive TakesPart (env : Env) : (text x rest : Str) → Prop
  | quoted {x y rest : Str} : TakesQuoted (x ++ rest) y rest → TakesPart env (x ++ rest) x rest
  | plain {w x w' rest : Str} : (∀ y k, ¬ TakesQuoted (w ++ x ++ w' ++ rest) y k) → White env w → Trimmed env x → White env w' →
      (∀ c ∈ w ++ x ++ w', c ∉ ['|', ';', '\n', '\r']) → (∀ c, rest.head? = some c → c ∈ ['|', ';', '\n', '\r']) →
      TakesPart env (w ++ x ++ w' ++ rest) x rest

/-- A payee, if there is one. -/
inductive TakesPayee (env : Env) : (text : Str) → Option Str → (rest : Str) → Prop
  | none {rest : Str} : rest.head? ≠ some '|' → TakesPayee env rest none rest
  | some {r k x rest : Str} : TakesSpaces r k → TakesPart env k x rest → TakesPayee env ('|' :: r) (some x) rest

/-- The end of the line or a comment, which keeps its semicolon.  What follows a carriage return (or a line break) is ignored. -/
inductive TakesEnd : Str → List Str → Prop
  | nil : TakesEnd [] []
  | comment {c : Str} : TakesEnd (';' :: c) [';' :: c]
  | cr {c : Char} {x : Str} : c = '\r' ∨ c = '\n' → TakesEnd (c :: x) []

/-- The first line of a transaction. -/
inductive TakesHeader (env : Env) : Str → Txn RawPosting → Prop
  | mk {line r1 r2 r3 r4 r5 r6 r7 r8 r9 r10 r11 r12 desc : Str} {date : Date} {eff : Option Date} {payee : Option Str}
      {cs : List Str} :
      TakesDate line date r1 → TakesTimeOpt r1 r2 → TakesEffective r2 eff r3 → r3.head? = some ' ' → TakesSpaces r3 r4 →
      TakesStatus r4 r5 → TakesSpaces r5 r6 → TakesCode r6 r7 → TakesSpaces r7 r8 → TakesPart env r8 desc r9 → TakesSpaces r9 r10 →
      TakesPayee env r10 payee r11 → TakesSpaces r11 r12 → TakesEnd r12 cs →
      TakesHeader env line
        { date := some date, effectiveDate := eff, description := desc
          payee := some (payee.getD (if desc = [] then "[Unspecified payee]".toList else desc))
          comments := cs }

/-- A commodity: a quoted text, or everything up to a separator or a special character. -/
inductive TakesCurrency (env : Env) : (text c rest : Str) → Prop
  | quoted {text c rest : Str} : TakesQuoted text c rest → TakesCurrency env text c rest
  | plain {c rest : Str} : (∀ y k, ¬ TakesQuoted (c ++ rest) y k) → c ≠ [] →
      (∀ y ∈ c, y ∉ "+*/\\|%<>:?();".toList ∧ env.sep y = false) → (∀ y, c.head? = some y → y ∉ ['=', '-', '&']) →
      (∀ y, rest.head? = some y → y ∈ "+*/\\|%<>:?();".toList ∨ env.sep y = true) → TakesCurrency env (c ++ rest) c rest

/-- A number: digits, perhaps with a point between them and a minus sign before them. -/
def TakesNumber (text : Str) (q : Rat) (rest : Str) : Prop :=
  ∃ n, text = n ++ rest ∧ WritesPriceNumber n q ∧ EndsDigits rest ∧ ('.' ∉ n → NoFraction rest)

/-- The line of a price. -/
inductive TakesPrice (env : Env) : Str → ParsedPrice → Prop
  | mk {r0 r1 r2 r3 r4 r5 r6 r7 r8 r9 r10 c o : Str} {date : Date} {q : Rat} {cs : List Str} :
      TakesSpaces r0 r1 → TakesDate r1 date r2 → TakesTimeOpt r2 r3 → r3.head? = some ' ' → TakesSpaces r3 r4 →
      TakesCurrency env r4 c r5 → TakesSpaces r5 r6 → TakesNumber r6 q r7 → TakesSpaces r7 r8 → TakesCurrency env r8 o r9 →
      TakesSpaces r9 r10 → TakesEnd r10 cs →
      TakesPrice env ('P' :: r0) { date := date, commodity := c, otherCommodity := o, otherQuantity := q }

/-- The first line of a commodity directive, with the name in it. -/
inductive TakesCommodity (env : Env) : Str → Str → Prop
  | mk {r0 r1 r2 r3 c : Str} {cs : List Str} : r0.head? = some ' ' → TakesSpaces r0 r1 → TakesCurrency env r1 c r2 →
      TakesSpaces r2 r3 → TakesEnd r3 cs → TakesCommodity env ("commodity".toList ++ r0) c

/-! ### Journals -/

/-- The first line of a directive: everything before the first place where its word is followed by a space is dropped. -/
def ReadsDirective (word line name : Str) : Prop :=
  ∃ pre b, line = pre ++ word ++ b ++ name ∧ Spaces b ∧ b ≠ [] ∧ name.head? ≠ some ' ' ∧ line.head? = word.head? ∧
    ¬ word ++ [' '] <:+: pre ++ word

/-- An item of a journal. -/
inductive TakesItem (env : Env) : Str → Block → Str → Prop
  | comment {m : Char} {s b c r : Str} : m ∈ [';', '!', '*', '%', '#'] → TakesLine s (m :: b ++ c) r → Blanks env b →
      (∀ x, c.head? = some x → env.ws x = false) → TakesItem env s (.comment c) r
  | price {s l r : Str} {p : ParsedPrice} : TakesLine s l r → TakesPrice env l p → TakesItem env s (.price p) r
  | txn {s h r rest : Str} {t : Txn RawPosting} {xs : List TxnLine} : TakesLine s h r →
      (∃ c, h.head? = some c ∧ env.numeric c = true) → TakesHeader env h t →
      TakesIndented env (TakesTxnLine env false t.payee) false r xs rest →
      TakesItem env s (.txn { t with comments := t.comments ++ (attach xs).1, postings := (attach xs).2 }) rest
  | auto {s d r rest : Str} {xs : List TxnLine} : TakesLine s ('=' :: d) r →
      TakesIndented env (TakesTxnLine env true none) false r xs rest →
      TakesItem env s
        (.txn { ttype := .automated, description := d, comments := (attach xs).1, postings := (attach xs).2 }) rest
  | account {s l b n b' r rest : Str} {ps : List Property} : TakesLine s l r → ReadsDirective "account".toList l (b ++ n ++ b') →
      Blanks env b → Trimmed env n → Blanks env b' →
      TakesIndented env (TakesProperty env ["default".toList]
        ["note".toList, "isin".toList, "alias".toList, "check".toList, "assert".toList, "payee".toList]) false r ps rest →
      (∀ x ∈ propertyTexts "payee" ps, env.rxOk x = true) →
      TakesItem env s
        (.account { name := n, aliases := distinct (propertyTexts "alias" ps), payees := propertyTexts "payee" ps,
                    isDefault := hasFlag "default" ps }) rest
  | commodity {s l b n b' r rest : Str} {ps : List Property} : TakesLine s l r → TakesCommodity env l (b ++ n ++ b') →
      White env b → Trimmed env n → White env b' →
      TakesIndented env (TakesProperty env ["default".toList] ["note".toList, "alias".toList, "format".toList]) false r ps rest →
      TakesItem env s
        (.commodity { name := n, aliases := distinct (propertyTexts "alias" ps), isDefault := hasFlag "default" ps }) rest
  | payee {s l n r rest : Str} {ps : List Property} : TakesLine s l r → ReadsDirective "payee".toList l n →
      TakesIndented env (TakesProperty env [] ["alias".toList]) false r ps rest →
      (∀ x ∈ propertyTexts "alias" ps, env.rxOk x = true) →
      TakesItem env s
        (.payee { name := n, aliases := distinct (propertyTexts "alias" ps), aliasRx := distinct (propertyTexts "alias" ps) }) rest
  | tag {s l b n b' r rest : Str} {ps : List Property} : TakesLine s l r → ReadsDirective "tag".toList l (b ++ n ++ b') →
      Blanks env b → Trimmed env n → Blanks env b' →
      TakesIndented env (TakesProperty env [] ["check".toList, "assert".toList]) false r ps rest → (∀ p ∈ ps, ∃ w x, p = .value w x) →
      TakesItem env s (.tag n) rest
  | incl {s x r : Str} : TakesLine s ("include ".toList ++ x) r → TakesItem env s (.incl x) r

/-- The items of a journal, each of them at the start of a line. -/
inductive TakesJournal (env : Env) : Str → List Block → Prop
  | nil {w : Str} : White env w → TakesJournal env w []
  | cons {w s rest : Str} {b : Block} {bs : List Block} : White env w → columnOf w = 0 →
      (∃ c, s.head? = some c ∧ env.ws c = false) → TakesItem env s b rest → TakesJournal env rest bs → TakesJournal env (w ++ s) (b :: bs)

/-- A file and the files it includes stand for this; `seen` are the files that are being read. -/
inductive Takes (env : Env) (fs : Files) : List Str → Str → ParsedLedger → Prop
  | mk {seen : List Str} {file text : Str} {bs : List Block} (entries : Str → List (Option Str)) (content : Str → ParsedLedger) :
      fs.read file = some text → TakesJournal env text bs →
      (∀ x, .incl x ∈ bs → ∃ dir, fs.parent file = some dir ∧
        fs.glob ((if dir = [] then ['.'] else dir) ++ '/' :: x) = some (entries x)) →
      (∀ x, .incl x ∈ bs → ∀ f, some f ∈ entries x → f ≠ file ∧ f ∉ seen) →
      (∀ x, .incl x ∈ bs → ∀ f, some f ∈ entries x → Takes env fs (file :: seen) f (content f)) →
      Takes env fs seen file
        (meaning env (fun x => ((entries x).filterMap id).foldl (fun pl f => pl.append (content f)) {}) bs)

end Dinero
