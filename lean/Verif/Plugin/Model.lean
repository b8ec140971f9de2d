/-! Model of the checks on plugins (plugin_checker.c), of the registration of their functions (plugin_loader.c:136-163)
and of the text of the errors (plugin_errlog.c). -/

namespace Voss.Plugin

/-- Types, as far as the number of arguments goes. -/
inductive Ty where
  | arrow (a b : Ty)
  | other

/-- plugin_checker.c:10-18 `get_num_args`. -/
def numArgs : Ty → Nat
  | .arrow _ b => 1 + numArgs b
  | .other => 0

/-- plugin.h:158 `fl_fun_fixity`, and any other value of the C type. -/
inductive Fixity where
  | none | prefix | infixl | infixr | postfix
  | invalid

/-- The description of a function (plugin.h `fl_plugin_fun_rec`); `none` is a null pointer. -/
structure Fun where
  name : Option (List Char)
  type : Option Ty
  strictness : Option (List Char)
  hasPtr : Bool
  fixity : Fixity
  precedence : Int

/-- The errors that are logged. -/
inductive Err where
  | noPtr | noName | noType | noStrictness | fewArgs | badFixity | badPrecedence | strictnessArgs

/-- plugin_checker.c:34-41 `check_fun_ptr_not_null`. -/
def checkPtr (f : Fun) : List Err := if f.hasPtr then [] else [.noPtr]

/-- plugin_checker.c:93-100 `check_fun_has_name`. -/
def checkName (f : Fun) : List Err := if f.name = none ∨ f.name = some [] then [.noName] else []

/-- plugin_checker.c:102-109 `check_fun_has_type`. -/
def checkType (f : Fun) : List Err := if f.type.isNone then [.noType] else []

/-- plugin_checker.c:111-118 `check_fun_has_strictness`. -/
def checkStrictness (f : Fun) : List Err :=
  match f.strictness with
  | none => [.noStrictness]
  | some s => if s.length ≥ 100 then [.noStrictness] else []

/-- plugin_checker.c:66-91 `check_fun_fixity`; `none`: a null pointer is followed. -/
def checkFixity (f : Fun) : Option (List Err) :=
  match f.fixity with
  | .none => some []
  | .prefix | .postfix => f.type.bind fun t => some (if numArgs t < 1 then [.fewArgs] else [])
  | .infixl | .infixr => f.type.bind fun t => some (if numArgs t < 2 then [.fewArgs] else [])
  | .invalid => some [.badFixity]

/-- plugin_checker.c:43-64 `check_fun_precedence_in_range`. -/
def checkPrecedence (f : Fun) : List Err :=
  match f.fixity with
  | .prefix => if f.precedence < 0 ∨ f.precedence > 1 then [.badPrecedence] else []
  | .infixl | .infixr => if f.precedence < 0 ∨ f.precedence > 9 then [.badPrecedence] else []
  | _ => []

/-- plugin_checker.c:20-32 `check_arg_strictness`; `none`: a null pointer is followed. -/
def checkArgs (f : Fun) : Option (List Err) :=
  f.strictness.bind fun s => f.type.bind fun t => some (if s.length ≠ numArgs t then [.strictnessArgs] else [])

/-- plugin_checker.c:129-145 `check_plugin_fun`: the errors logged; `none`: a null pointer is followed.  (The elements of an
array are never null themselves.) -/
def checkFun (f : Fun) : Option (List Err) :=
  (checkFixity f).bind fun e5 =>
  (checkArgs f).bind fun e7 =>
  some (checkPtr f ++ checkName f ++ checkType f ++ checkStrictness f ++ e5 ++ checkPrecedence f ++ e7)

/-- The loop of plugin_checker.c:250-252 `check_plugin_funs`. -/
def checkFuns : List Fun → Option (List Err)
  | [] => some []
  | f :: l => (checkFun f).bind fun e => (checkFuns l).bind fun r => some (e ++ r)

/-- plugin_loader.c:136-163 `register_funs`, with `errs` errors logged before: the functions that are added to the
language. -/
def registerFuns (ok : Bool) (errs : Nat) (l : List Fun) : Option (List Fun) :=
  if !ok then some []
  else (checkFuns l).bind fun e => some (if errs + e.length > 0 then [] else l)

/-- `snprintf(&out[i], (size_t) (max-i), "%s", t)` into a buffer of `max` bytes that holds the text `out` (without its
terminating byte): the text afterwards; `none`: the pointer is already past the end of the buffer, which is undefined.
(The size is then negative and becomes a very large `size_t`, so that nothing limits what is written.) -/
def snprintf (max i : Nat) (out t : List Char) : Option (List Char) :=
  if i < max then some (out ++ t.take (max - i - 1))
  else if i = max then some out
  else none

/-- The loop of plugin_errlog.c:45-47 `get_plugin_errors` over the lines of the errors: `i` is increased by the length the
text would have had. -/
def errorLoop (max : Nat) : Nat → List Char → List (List Char) → Option (List Char)
  | _, out, [] => some out
  | i, out, t :: l => (snprintf max i out t).bind fun out => errorLoop max (i + t.length) out l

/-- plugin_errlog.c:41-49 `get_plugin_errors`. -/
def getErrors (max : Nat) (pre : List Char) (errs : List (List Char)) : Option (List Char) :=
  errorLoop max 0 [] (errs.map fun e => pre ++ e ++ ['\n'])

end Voss.Plugin
