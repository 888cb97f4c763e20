import Verif.Model.Include
import Verif.Spec.Date
/-
How a journal is written and what it means, line by line and independently of the tokenizer.
-/
namespace Dinero

/-- The character classes agree with Unicode on the ASCII characters, and no character is both white space
and numeric. -/
structure Env.AsciiChars (env : Env) : Prop where
  ws : ∀ c : Char, c.toNat < 128 → (env.ws c = true ↔ c = ' ' ∨ (9 ≤ c.toNat ∧ c.toNat ≤ 13))
  numeric : ∀ c : Char, c.toNat < 128 → (env.numeric c = true ↔ '0' ≤ c ∧ c ≤ '9')
  disjoint : ∀ c, env.ws c = true → env.numeric c = false

/-- White space within a line. -/
def Blanks (env : Env) (s : Str) : Prop := ∀ c ∈ s, env.ws c = true ∧ c ≠ '\n'

/-- Spaces (the only blanks the grammar knows). -/
def Spaces (s : Str) : Prop := ∀ c ∈ s, c = ' '

/-- No white space at either end. -/
def Trimmed (env : Env) (s : Str) : Prop :=
  (∀ c, s.head? = some c → env.ws c = false) ∧ (∀ c, s.getLast? = some c → env.ws c = false)

/-! ### Amounts -/

/-- Digits with at most one point among them: `12`, `12.5`, `12.`, `.5`. -/
def IsAmount (s : Str) : Prop :=
  ∃ a b, (∀ c ∈ a ++ b, '0' ≤ c ∧ c ≤ '9') ∧ a ++ b ≠ [] ∧ (s = a ++ '.' :: b ∨ (s = a ∧ b = []))

/-- A written number with an optional minus sign and the number it denotes. -/
inductive WritesNumber : Str → Rat → Prop
  | pos {s : Str} : IsAmount s → WritesNumber s (unsignedVal s)
  | neg {s : Str} : IsAmount s → WritesNumber ('-' :: s) (-unsignedVal s)

/-- A written commodity and its name: a word, or anything between double quotes. -/
inductive WritesCurrency (env : Env) : Str → Str → Prop
  | plain {c : Str} : c ≠ [] → (∀ x ∈ c, env.ws x = false ∧ env.numeric x = false ∧
      x ∉ ['.', '-', ';', '"', '\n']) → (∀ x, c.head? = some x → x ∉ ['(', '=', '@']) → WritesCurrency env c c
  | quoted {c : Str} : c ≠ [] → '"' ∉ c → '\n' ∉ c → WritesCurrency env ('"' :: c ++ ['"']) c

/-- A written amount of a commodity: the commodity after the number or before it. -/
inductive WritesMoney (env : Env) : Str → Rat → Str → Prop
  | after {n b cs c : Str} {q : Rat} : WritesNumber n q → Blanks env b → WritesCurrency env cs c →
      WritesMoney env (n ++ b ++ cs) q c
  | before {n b cs c : Str} {q : Rat} : WritesCurrency env cs c → Blanks env b → WritesNumber n q →
      WritesMoney env (cs ++ b ++ n) q c

/-! ### Postings -/

/-- The amounts a posting can have. -/
inductive Field where
  | amount
  | unitCost
  | totalCost
  | assertion
  deriving DecidableEq

/-- What stands in front of them. -/
def Field.mark : Field → Str
  | .amount => []
  | .unitCost => ['@']
  | .totalCost => ['@', '@']
  | .assertion => ['=']

/-- Where they go. -/
def Field.set (p : RawPosting) (q : Rat) (c : Str) : Field → RawPosting
  | .amount => { p with moneyAmount := some q, moneyCurrency := some c }
  | .unitCost => { p with costAmount := some q, costCurrency := some c, costType := some .perUnit }
  | .totalCost => { p with costAmount := some q, costCurrency := some c, costType := some .total }
  | .assertion => { p with balanceAmount := some q, balanceCurrency := some c }

/-- The order of the amounts: a cost needs an amount, the assertion comes last, any of them can be missing. -/
def FieldOrder (fs : List Field) : Prop :=
  fs ∈ [[], [.amount], [.amount, .unitCost], [.amount, .totalCost], [.assertion], [.amount, .assertion],
    [.amount, .unitCost, .assertion], [.amount, .totalCost, .assertion]]

/-- Written amounts, separated by blanks; blanks at the end. -/
inductive WritesFields (env : Env) : Str → List (Field × Rat × Str) → Prop
  | nil : WritesFields env [] []
  | cons {b m b' s : Str} {q : Rat} {c : Str} {fs : List (Field × Rat × Str)} (f : Field) :
      Blanks env b → WritesMoney env m q c → Blanks env b' → (b' = [] → s = []) →
      (f = .amount → b = []) → WritesFields env s fs →
      WritesFields env (f.mark ++ b ++ m ++ b' ++ s) ((f, q, c) :: fs)

/-- An account name: no tabs, no two blanks in a row, no blanks at the ends. -/
def AccountName (env : Env) (a : Str) : Prop :=
  a ≠ [] ∧ Trimmed env a ∧ '\t' ∉ a ∧ '\n' ∉ a ∧
  ∀ pre x y post, a = pre ++ x :: y :: post → env.ws x = true → env.ws y = false

/-- The written account of a posting, its name and the kind of posting the brackets stand for.  The first
character must be an ASCII character. -/
inductive WritesAccount (env : Env) : Str → Str → Kind → Prop
  | real {a : Str} : AccountName env a → (∀ c, a.head? = some c → c.toNat < 128 ∧ env.numeric c = false ∧
      c ∉ ['(', '[', ';']) → WritesAccount env a a .real
  | virt {b a b' : Str} : AccountName env ('(' :: b ++ a ++ b' ++ [')']) → Blanks env b → Blanks env b' →
      Trimmed env a → WritesAccount env ('(' :: b ++ a ++ b' ++ [')']) a .virt
  | virtBal {b a b' : Str} : AccountName env ('[' :: b ++ a ++ b' ++ [']']) → Blanks env b → Blanks env b' →
      Trimmed env a → WritesAccount env ('[' :: b ++ a ++ b' ++ [']']) a .virtBal

/-- What ends an account name on its line: a tab or two blanks, and any further blanks. -/
def AccountSep (env : Env) (s : Str) : Prop :=
  Blanks env s ∧ (s.head? = some '\t' ∨ ∃ x y r, s = x :: y :: r)

/-- A written comment and its text (up to the end of the line, without leading blanks). -/
inductive WritesComment (env : Env) : Str → Str → Prop
  | mk {b c : Str} : Blanks env b → '\n' ∉ c → (∀ x, c.head? = some x → env.ws x = false) →
      WritesComment env (';' :: b ++ c) c

/-- An optional comment at the end of a line. -/
inductive WritesCommentOpt (env : Env) : Str → List Str → Prop
  | none : WritesCommentOpt env [] []
  | some {s c : Str} : WritesComment env s c → WritesCommentOpt env s [c]

/-- A posting line without its indentation, for a transaction with this payee. -/
inductive WritesPosting (env : Env) (payee : Option Str) : Str → RawPosting → Prop
  /-- just the account -/
  | account {s a : Str} {k : Kind} : WritesAccount env s a k →
      WritesPosting env payee s { account := a, kind := k, payee := payee }
  /-- the account and amounts -/
  | amounts {s a sep f c : Str} {k : Kind} {fs : List (Field × Rat × Str)} {cs : List Str} :
      WritesAccount env s a k → AccountSep env sep → WritesFields env f fs → FieldOrder (fs.map (·.1)) →
      WritesCommentOpt env c cs →
      WritesPosting env payee (s ++ sep ++ f ++ c)
        { fs.foldl (fun p x => x.1.set p x.2.1 x.2.2)
            { account := a, kind := k, payee := payee } with comments := cs }
  /-- the account and a value expression in parentheses, which extends to the comment -/
  | expr {s a sep e c : Str} {k : Kind} {cs : List Str} :
      WritesAccount env s a k → AccountSep env sep → e.head? = some '(' →
      e.count '(' = e.count ')' → '\n' ∉ e → ';' ∉ e → WritesCommentOpt env c cs →
      WritesPosting env payee (s ++ sep ++ e ++ c)
        { account := a, kind := k, payee := payee, amountExpr := some e, comments := cs }

/-! ### Transactions -/

/-- A line of a transaction. -/
inductive TxnLine where
  | posting (p : RawPosting)
  | comment (c : Str)

/-- An indented line of a transaction with this payee. -/
inductive WritesTxnLine (env : Env) (payee : Option Str) : Str → TxnLine → Prop
  | posting {i s : Str} {p : RawPosting} : i ≠ [] → Blanks env i → WritesPosting env payee s p →
      WritesTxnLine env payee (i ++ s) (.posting p)
  | comment {i s c : Str} : i ≠ [] → Blanks env i → WritesComment env s c →
      WritesTxnLine env payee (i ++ s) (.comment c)

/-- The comments and postings of a transaction: a comment belongs to the posting before it, or to the
transaction. -/
def attach : List TxnLine → List Str × List RawPosting
  | [] => ([], [])
  | .comment c :: ls => (c :: (attach ls).1, (attach ls).2)
  | .posting p :: ls => ([], { p with comments := p.comments ++ (attach ls).1 } :: (attach ls).2)

/-- Lines of which the blank ones mean nothing. -/
inductive WritesBody {α : Type} (env : Env) (line : Str → α → Prop) : List Str → List α → Prop
  | nil : WritesBody env line [] []
  | blank {b : Str} {ls : List Str} {xs : List α} : Blanks env b → WritesBody env line ls xs →
      WritesBody env line (b :: ls) xs
  | cons {l : Str} {x : α} {ls : List Str} {xs : List α} : line l x → WritesBody env line ls xs →
      WritesBody env line (l :: ls) (x :: xs)

/-- A time of day, with seconds and before 20:00. -/
inductive WritesTime : Str → Prop
  | mk {h m s : Str} {nh nm ns : Nat} : TwoDigits h nh → h.length = 2 → nh < 20 → TwoDigits m nm → m.length = 2 →
      nm < 60 → TwoDigits s ns → s.length = 2 → ns < 60 → WritesTime (h ++ ':' :: m ++ ':' :: s)

/-- A date of the calendar, with or without a time of day. -/
inductive WritesWhen : Str → Date → Prop
  | date {s : Str} {y : Int} {m d : Nat} : WritesDate s y m d → ValidDate y m d → -262144 ≤ y → y ≤ 262143 →
      WritesWhen s (dayNumber y m d)
  | time {s t : Str} {y : Int} {m d : Nat} : WritesDate s y m d → ValidDate y m d → -262144 ≤ y → y ≤ 262143 →
      WritesTime t → WritesWhen (s ++ ' ' :: t) (dayNumber y m d)

/-- An optional effective date. -/
inductive WritesEffective : Str → Option Date → Prop
  | none : WritesEffective [] none
  | some {s : Str} {d : Date} : WritesWhen s d → WritesEffective ('=' :: s) (some d)

/-- An optional status. -/
def WritesStatus (s : Str) : Prop := s = [] ∨ s = ['*'] ∨ s = ['!']

/-- An optional code, a quoted string in parentheses. -/
inductive WritesCode : Str → Prop
  | none : WritesCode []
  | some {c : Str} : '"' ∉ c → '\\' ∉ c → '\n' ∉ c → WritesCode ('(' :: '"' :: c ++ ['"', ')'])

/-- A description or payee: no bars, semicolons or line breaks, no blanks around it and no quote in front. -/
def HeaderText (env : Env) (s : Str) : Prop :=
  Trimmed env s ∧ (∀ c ∈ s, c ∉ ['|', ';', '\n', '\r']) ∧ s.head? ≠ some '"' ∧ s.head? ≠ some '\''

/-- An optional payee. -/
inductive WritesPayee (env : Env) : Str → Option Str → Prop
  | none : WritesPayee env [] none
  | some {b p b' : Str} : Spaces b → HeaderText env p → Spaces b' → WritesPayee env ('|' :: b ++ p ++ b') (some p)

/-- The end of the first line: nothing or a carriage return, or a comment, which keeps its semicolon. -/
inductive WritesHeaderEnd : Str → List Str → Prop
  | none : WritesHeaderEnd [] []
  | cr : WritesHeaderEnd ['\r'] []
  | comment {c : Str} : '\n' ∉ c → WritesHeaderEnd (';' :: c) [';' :: c]

/-- The first line of a transaction. -/
inductive WritesHeader (env : Env) : Str → Txn RawPosting → Prop
  | mk {d e b st b' co b'' desc b3 pa en : Str} {date : Date} {eff : Option Date} {payee : Option Str}
      {cs : List Str} :
      WritesWhen d date → WritesEffective e eff → Spaces b → b ≠ [] → WritesStatus st → Spaces b' →
      WritesCode co → Spaces b'' → HeaderText env desc → Spaces b3 → WritesPayee env pa payee →
      WritesHeaderEnd en cs →
      -- the description is not taken for a status, a code or a time of day
      (st = [] → desc.head? ≠ some '*' ∧ desc.head? ≠ some '!') →
      (desc.head? = some '(' → (desc.drop 1).head? ≠ some '"' ∧ (desc.drop 1).head? ≠ some '\'') →
      ((∃ c, desc.head? = some c ∧ '0' ≤ c ∧ c ≤ '9') → ':' ∉ desc) →
      WritesHeader env (d ++ e ++ b ++ st ++ b' ++ co ++ b'' ++ desc ++ b3 ++ pa ++ en)
        { date := some date, effectiveDate := eff, description := desc
          payee := some (payee.getD (if desc = [] then "[Unspecified payee]".toList else desc))
          comments := cs }

/-! ### Directives -/

/-- A quoted or plain commodity name in a directive (here without white space). -/
inductive WritesCommodity (env : Env) : Str → Str → Prop
  | plain {c : Str} : PlainCurrency env c → (∀ x ∈ c, env.ws x = false) → WritesCommodity env c c
  | quoted {c : Str} : '"' ∉ c → '\\' ∉ c → '\n' ∉ c → Trimmed env c → WritesCommodity env ('"' :: c ++ ['"']) c

/-- A number in a price directive: digits on both sides of the point. -/
inductive WritesPriceNumber : Str → Rat → Prop
  | pos {s : Str} : IsNumeral s → WritesPriceNumber s (unsignedVal s)
  | neg {s : Str} : IsNumeral s → WritesPriceNumber ('-' :: s) (-unsignedVal s)

/-- The line of a price directive. -/
inductive WritesPrice (env : Env) : Str → ParsedPrice → Prop
  | mk {b1 d b2 cs c b3 n b4 os o b5 en : Str} {date : Date} {q : Rat} {cm : List Str} :
      Spaces b1 → WritesWhen d date → Spaces b2 → b2 ≠ [] → WritesCommodity env cs c →
      Spaces b3 → b3 ≠ [] → WritesPriceNumber n q → Spaces b4 → b4 ≠ [] → WritesCommodity env os o → Spaces b5 →
      WritesHeaderEnd en cm → en ≠ ['\r'] →
      WritesPrice env ('P' :: b1 ++ d ++ b2 ++ cs ++ b3 ++ n ++ b4 ++ os ++ b5 ++ en)
        { date := date, commodity := c, otherCommodity := o, otherQuantity := q }

/-- A line of an account, commodity, payee or tag directive. -/
inductive Property where
  | comment
  | flag (word : Str)
  | value (word text : Str)

/-- An indented line of a directive, with these words that stand alone or have a text. -/
inductive WritesProperty (env : Env) (flags words : List Str) : Str → Property → Prop
  | comment {i s c : Str} : i ≠ [] → Blanks env i → WritesComment env s c →
      WritesProperty env flags words (i ++ s) .comment
  | flag {i w b : Str} : i ≠ [] → Blanks env i → w ∈ flags → Blanks env b →
      WritesProperty env flags words (i ++ w ++ b) (.flag w)
  | value {i w b x b' : Str} : i ≠ [] → Blanks env i → w ∈ words → Blanks env b → b ≠ [] → Blanks env b' →
      '\n' ∉ x → Trimmed env x → WritesProperty env flags words (i ++ w ++ b ++ x ++ b') (.value w x)

/-- The texts of the properties with this word. -/
def propertyTexts (word : String) (ps : List Property) : List Str :=
  ps.filterMap (fun p => match p with | .value w x => if w = word.toList then some x else none | _ => none)

/-- Is there a property without a text and with this word? -/
def hasFlag (word : String) (ps : List Property) : Bool :=
  ps.any (fun p => match p with | .flag w => w == word.toList | _ => false)

/-- A list without repetitions, in order of first appearance. -/
def distinct (l : List Str) : List Str := l.foldl (fun acc x => if x ∈ acc then acc else acc ++ [x]) []

/-! ### Journals -/

/-- What a journal consists of. -/
inductive Block where
  | comment (c : Str)
  | price (p : ParsedPrice)
  | txn (t : Txn RawPosting)
  | account (a : AccountDef)
  | commodity (c : CurrencyDef)
  | payee (p : PayeeDef)
  | tag (name : Str)
  | incl (line : Str)

/-- The first line of an item and its further lines, and what they mean. -/
inductive WritesBlock (env : Env) : Str → List Str → Block → Prop
  | comment {m : Char} {b c : Str} : m ∈ [';', '!', '*', '%', '#'] → Blanks env b → '\n' ∉ c →
      (∀ x, c.head? = some x → env.ws x = false) → WritesBlock env (m :: b ++ c) [] (.comment c)
  | price {l : Str} {p : ParsedPrice} : WritesPrice env l p → WritesBlock env l [] (.price p)
  | txn {h : Str} {t : Txn RawPosting} {ls : List Str} {xs : List TxnLine} : WritesHeader env h t →
      (∀ c, h.head? = some c → c ≠ '-') →
      WritesBody env (WritesTxnLine env t.payee) ls xs →
      WritesBlock env h ls
        (.txn { t with comments := t.comments ++ (attach xs).1, postings := (attach xs).2 })
  | auto {d : Str} {ls : List Str} {xs : List TxnLine} : '\n' ∉ d → WritesBody env (WritesTxnLine env none) ls xs →
      WritesBlock env ('=' :: d) ls
        (.txn { ttype := .automated, description := d, comments := (attach xs).1, postings := (attach xs).2 })
  | account {b n b' : Str} {ls : List Str} {ps : List Property} : Spaces b → b ≠ [] → Trimmed env n → '\n' ∉ n →
      Blanks env b' →
      WritesBody env (WritesProperty env ["default".toList]
        ["note".toList, "isin".toList, "alias".toList, "check".toList, "assert".toList, "payee".toList]) ls ps →
      (∀ x ∈ propertyTexts "payee" ps, env.rxOk x = true) →
      WritesBlock env ("account".toList ++ b ++ n ++ b') ls
        (.account { name := n, aliases := distinct (propertyTexts "alias" ps), payees := propertyTexts "payee" ps,
                    isDefault := hasFlag "default" ps })
  | commodity {b cs c b' en : Str} {ls : List Str} {ps : List Property} {cm : List Str} : Spaces b → b ≠ [] →
      WritesCommodity env cs c → Spaces b' → WritesHeaderEnd en cm → en ≠ ['\r'] →
      WritesBody env (WritesProperty env ["default".toList] ["note".toList, "alias".toList, "format".toList]) ls ps →
      WritesBlock env ("commodity".toList ++ b ++ cs ++ b' ++ en) ls
        (.commodity { name := c, aliases := distinct (propertyTexts "alias" ps), isDefault := hasFlag "default" ps })
  | payee {b n : Str} {ls : List Str} {ps : List Property} : Spaces b → b ≠ [] → '\n' ∉ n →
      n.head? ≠ some ' ' →
      WritesBody env (WritesProperty env [] ["alias".toList]) ls ps →
      (∀ x ∈ propertyTexts "alias" ps, env.rxOk x = true) →
      WritesBlock env ("payee".toList ++ b ++ n) ls
        (.payee { name := n, aliases := distinct (propertyTexts "alias" ps),
                  aliasRx := distinct (propertyTexts "alias" ps) })
  | tag {b n b' : Str} {ls : List Str} {ps : List Property} : Spaces b → b ≠ [] → Trimmed env n → '\n' ∉ n →
      Blanks env b' →
      WritesBody env (WritesProperty env [] ["check".toList, "assert".toList]) ls ps →
      (∀ p ∈ ps, ∃ w x, p = .value w x) →
      WritesBlock env ("tag".toList ++ b ++ n ++ b') ls (.tag n)
  | incl {x : Str} : '\n' ∉ x → WritesBlock env ("include ".toList ++ x) [] (.incl x)

/-- The lines of a journal and the items in it. -/
inductive WritesJournal (env : Env) : List Str → List Block → Prop
  | nil : WritesJournal env [] []
  | blank {b : Str} {ls : List Str} {bs : List Block} : Blanks env b → WritesJournal env ls bs →
      WritesJournal env (b :: ls) bs
  | cons {h : Str} {body ls : List Str} {b : Block} {bs : List Block} : WritesBlock env h body b →
      WritesJournal env ls bs → WritesJournal env (h :: body ++ ls) (b :: bs)

/-- The text with these lines.  A text that ends with a line break has an empty last line. -/
def joinLines : List Str → Str
  | [] => []
  | [l] => l
  | l :: l' :: ls => l ++ '\n' :: joinLines (l' :: ls)

/-- The account of a posting without an amount must be followed by a line break: if a journal ends with a
transaction, then its last line is not just an account. -/
def LastLineOk (env : Env) (ls : List Str) (bs : List Block) : Prop :=
  ∀ t, bs.getLast? = some (.txn t) → ∀ l, ls.getLast? = some l →
    ∀ i s a k, l = i ++ s → i ≠ [] → Blanks env i → ¬ WritesAccount env s a k

/-- What the items add to a ledger; `included` is what the files of an include directive contain. -/
def addBlock (env : Env) (included : Str → ParsedLedger) (pl : ParsedLedger) : Block → ParsedLedger
  | .comment c => { pl with comments := pl.comments ++ [c] }
  | .price p => { pl with prices := pl.prices ++ [p] }
  | .txn t => { pl with transactions := pl.transactions ++ [t] }
  | .account a => { pl with lists := { pl.lists with accounts := pl.lists.accounts.insert env.lower a } }
  | .commodity c => { pl with lists := { pl.lists with commodities := pl.lists.commodities.insert env.lower c } }
  | .payee p => { pl with lists := { pl.lists with payees := pl.lists.payees.insert env.lower p } }
  | .tag n => { pl with tags := pl.tags ++ [n] }
  | .incl line => pl.append (included line)

/-- What a journal contains. -/
def meaning (env : Env) (included : Str → ParsedLedger) (bs : List Block) : ParsedLedger :=
  bs.foldl (addBlock env included) {}

/-! ### Files -/

/-- Reading a file, with the files that include it: it is a journal and the files that its include directives
name, relative to its directory, can be read, none of them being one that is being read already.
What they contain is added in their order. -/
inductive Loads (env : Env) (fs : Files) : List Str → Str → ParsedLedger → Prop
  | mk {seen : List Str} {file dir : Str} {ls : List Str} {bs : List Block} (entries : Str → List (Option Str))
      (content : Str → ParsedLedger) :
      fs.read file = some (joinLines ls) → WritesJournal env ls bs → LastLineOk env ls bs →
      ((∃ x, .incl x ∈ bs) → fs.parent file = some dir) →
      (∀ x, .incl x ∈ bs → fs.glob ((if dir = [] then ['.'] else dir) ++ '/' :: x) = some (entries x)) →
      (∀ x, .incl x ∈ bs → ∀ f, some f ∈ entries x → f ≠ file ∧ f ∉ seen) →
      (∀ x, .incl x ∈ bs → ∀ f, some f ∈ entries x → Loads env fs (file :: seen) f (content f)) →
      Loads env fs seen file
        (meaning env (fun x => ((entries x).filterMap id).foldl (fun pl f => pl.append (content f)) {}) bs)

/-- Two items declare the same account, commodity or payee (ignoring case). -/
def SameName (lower : Str → Str) : Block → Block → Prop
  | .account a, .account b => lower a.name = lower b.name
  | .commodity a, .commodity b => lower a.name = lower b.name
  | .payee a, .payee b => lower a.name = lower b.name
  | _, _ => False

/-! ### Comments in tag directives -/

/-- A line that starts with a `t` and contains `tag `, and further down an indented comment with nothing but indented
and blank lines in between. -/
def TagComment (ws : Char → Bool) (s : Str) : Prop :=
  ∃ (pre line : Str) (ls : List Str) (b post : Str), s = pre ++ line ++ '\n' :: (ls.flatMap (· ++ ['\n']) ++ b ++ ';' :: post) ∧
    line.head? = some 't' ∧ '\n' ∉ line ∧ "tag ".toList <:+: line ∧
    (∀ l ∈ ls, '\n' ∉ l ∧ ∀ c, l.head? = some c → ws c = true) ∧ b ≠ [] ∧
    (∀ c ∈ b, ws c = true ∧ c ≠ '\n')

/-! ### The line counter -/

/-- The tokenizer has read a part of its text and counted the line breaks in it. -/
def Tok.CountsLines (t : Tok) : Prop := ∃ read, t.content = read ++ t.rest ∧ t.line = read.count '\n'

/-- The states of the tokenizer between the items of a text, and before and after the white space between them, as long as
the first characters of the items meet this condition. -/
inductive Visited (env : Env) (fuel : Nat) (inc : Tok → PRes (ParsedLedger × Tok)) (q : Char → Prop) (text : Str) : Tok → Prop
  | start : Visited env fuel inc q text (Tok.ofContent text)
  | skip {t : Tok} : Visited env fuel inc q text t → Visited env fuel inc q text (wsLines env t).1
  | item {t t' : Tok} {c : Char} {r : Str} {pl pl' : ParsedLedger} : Visited env fuel inc q text t → t.rest = c :: r →
      c ≠ '\n' → q c → item env fuel inc c pl t = .ok (pl', t') → Visited env fuel inc q text t'

/-! ### Include loops -/

/-- A file with an include directive that names a file that is being read, or a file of which the same is true.  Everything
before that can be read. -/
inductive IncludesItself (env : Env) (fs : Files) : List Str → Str → Prop
  | here {seen : List Str} {file dir x f : Str} {ls post : List Str} {bs : List Block} {es : List (Option Str)}
      (entries : Str → List (Option Str)) (content : Str → ParsedLedger) :
      fs.read file = some (joinLines (ls ++ ("include ".toList ++ x) :: post)) → post ≠ [] →
      WritesJournal env ls bs → '\n' ∉ x → fs.parent file = some dir →
      (∀ y, .incl y ∈ bs → fs.glob ((if dir = [] then ['.'] else dir) ++ '/' :: y) = some (entries y)) →
      (∀ y, .incl y ∈ bs → ∀ g, some g ∈ entries y → g ≠ file ∧ g ∉ seen) →
      (∀ y, .incl y ∈ bs → ∀ g, some g ∈ entries y → Loads env fs (file :: seen) g (content g)) →
      fs.glob ((if dir = [] then ['.'] else dir) ++ '/' :: x) = some es → some f ∈ es → f = file ∨ f ∈ seen →
      IncludesItself env fs seen file
  | deeper {seen : List Str} {file dir x f : Str} {ls post : List Str} {bs : List Block} {pre es : List (Option Str)}
      (entries : Str → List (Option Str)) (content : Str → ParsedLedger) :
      fs.read file = some (joinLines (ls ++ ("include ".toList ++ x) :: post)) →
      WritesJournal env ls bs → '\n' ∉ x → fs.parent file = some dir →
      (∀ y, .incl y ∈ bs → fs.glob ((if dir = [] then ['.'] else dir) ++ '/' :: y) = some (entries y)) →
      (∀ y, .incl y ∈ bs → ∀ g, some g ∈ entries y → g ≠ file ∧ g ∉ seen) →
      (∀ y, .incl y ∈ bs → ∀ g, some g ∈ entries y → Loads env fs (file :: seen) g (content g)) →
      fs.glob ((if dir = [] then ['.'] else dir) ++ '/' :: x) = some (pre ++ some f :: es) →
      (∀ g, some g ∈ pre ++ some f :: es → g ≠ file ∧ g ∉ seen) →
      (∀ g, some g ∈ pre → Loads env fs (file :: seen) g (content g)) →
      IncludesItself env fs (file :: seen) f → IncludesItself env fs seen file

/-! ### Pasting -/

/-- The same files, but one of them with another text. -/
def Files.withText (fs : Files) (file text : Str) : Files :=
  { fs with read := fun p => if p = file then some text else fs.read p }

end Dinero
