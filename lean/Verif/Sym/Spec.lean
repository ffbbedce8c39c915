import Verif.Sym.Model

/-
Specification for C25, C55 and C56: histories of the tables, the documented aliases, and the functions that built-in names
stand for.
-/

namespace Verif.Sym

/-- A C string has no zero in it. -/
def CStr (n : Name) : Prop := 0 ∉ n

/-- One operation of the API, other than clearing an extension. -/
inductive Step : Tab → Tab → Prop
  | add (t : Tab) (n : Name) (mem : Bool) : CStr n → Step t (addSymbol t n mem).1
  | addFlash (t : Tab) (n : Name) (w1 w2 : Bool) : CStr n → Step t (addSymbolFlash t n w1 w2).1
  | addConst (t : Tab) (n : Name) (mem : Bool) : CStr n → Step t (addSymbolConst t n mem).1
  | ext (t : Tab) (n : Name) (f : Nat) : CStr n → Step t (addExtension t n f).1
  | read (t : Tab) (n : Name) (flash m1 m2 : Bool) : CStr n → Step t (readSymbol t n flash m1 m2).1

/-- Any number of operations. -/
inductive Steps : Tab → Tab → Prop
  | refl (t : Tab) : Steps t t
  | tail {t u v : Tab} : Steps t u → Step u v → Steps t v

/-- Any number of operations, which may clear extensions. -/
inductive StepsC : Tab → Tab → Prop
  | refl (t : Tab) : StepsC t t
  | step {t u v : Tab} : StepsC t u → Step u v → StepsC t v
  | clr {t u : Tab} (id : Nat) : StepsC t u → StepsC t (clrExtension u id).1

/-- The states of a runtime with room for `extMax` extensions. -/
def Reach (extMax : Nat) (t : Tab) : Prop := ∃ m1 m2, StepsC (init extMax m1 m2) t

/-- The documented aliases. -/
def aliases : List (String × String) :=
  [("nil", "false"), ("t", "true"), ("lambda", "fn"), ("define", "def"), ("set", "setvar"), ("type-float", "type-f32"),
   ("type-double", "type-f64"), ("car", "first"), ("cdr", "rest"), ("bufcreate", "array-create")]

/-- `a` and `b` are the same name or documented aliases of each other. -/
def SameSymbol (a b : Name) : Prop :=
  a = b ∨ ∃ p ∈ aliases, (a = str p.1 ∧ b = str p.2) ∨ (a = str p.2 ∧ b = str p.1)

/-- The functions that built-in names stand for. -/
def builtinFunctions : List (String × Call) :=
  [("set", .appfun "apply_setvar"), ("setvar", .appfun "apply_setvar"), ("read", .appfun "apply_read"),
   ("read-program", .appfun "apply_read_program"), ("read-eval-program", .appfun "apply_read_eval_program"),
   ("spawn", .appfun "apply_spawn"), ("spawn-trap", .appfun "apply_spawn_trap"), ("yield", .appfun "apply_yield"),
   ("wait", .appfun "apply_wait"), ("eval", .appfun "apply_eval"), ("eval-program", .appfun "apply_eval_program"),
   ("send", .appfun "apply_send"), ("exit-ok", .appfun "apply_ok"), ("exit-error", .appfun "apply_error"),
   ("map", .appfun "apply_map"), ("reverse", .appfun "apply_reverse"), ("flatten", .appfun "apply_flatten"),
   ("unflatten", .appfun "apply_unflatten"), ("kill", .appfun "apply_kill"), ("sleep", .appfun "apply_sleep"),
   ("merge", .appfun "apply_merge"), ("sort", .appfun "apply_sort"), ("rest-args", .appfun "apply_rest_args"),
   ("rotate", .appfun "apply_rotate"),
   ("+", .fundamental "fundamental_add"), ("-", .fundamental "fundamental_sub"), ("*", .fundamental "fundamental_mul"),
   ("/", .fundamental "fundamental_div"), ("//", .fundamental "fundamental_int_div"), ("mod", .fundamental "fundamental_mod"),
   ("eq", .fundamental "fundamental_eq"), ("not-eq", .fundamental "fundamental_not_eq"), ("=", .fundamental "fundamental_numeq"),
   ("!=", .fundamental "fundamental_num_not_eq"), ("<", .fundamental "fundamental_lt"), (">", .fundamental "fundamental_gt"),
   ("<=", .fundamental "fundamental_leq"), (">=", .fundamental "fundamental_geq"), ("not", .fundamental "fundamental_not"),
   ("gc", .fundamental "fundamental_gc"), ("self", .fundamental "fundamental_self"),
   ("set-mailbox-size", .fundamental "fundamental_set_mailbox_size"), ("cons", .fundamental "fundamental_cons"),
   ("car", .fundamental "fundamental_car"), ("first", .fundamental "fundamental_car"), ("cdr", .fundamental "fundamental_cdr"),
   ("rest", .fundamental "fundamental_cdr"), ("list", .fundamental "fundamental_list"),
   ("append", .fundamental "fundamental_append"), ("undefine", .fundamental "fundamental_undefine"),
   ("bufcreate", .fundamental "fundamental_buf_create"), ("array-create", .fundamental "fundamental_buf_create"),
   ("sym2str", .fundamental "fundamental_symbol_to_string"), ("str2sym", .fundamental "fundamental_string_to_symbol"),
   ("sym2u", .fundamental "fundamental_symbol_to_uint"), ("u2sym", .fundamental "fundamental_uint_to_symbol"),
   ("setcar", .fundamental "fundamental_set_car"), ("setcdr", .fundamental "fundamental_set_cdr"),
   ("setix", .fundamental "fundamental_set_ix"), ("assoc", .fundamental "fundamental_assoc"),
   ("acons", .fundamental "fundamental_acons"), ("setassoc", .fundamental "fundamental_set_assoc"),
   ("cossa", .fundamental "fundamental_cossa"), ("ix", .fundamental "fundamental_ix"), ("to-i", .fundamental "fundamental_to_i"),
   ("to-i32", .fundamental "fundamental_to_i32"), ("to-u", .fundamental "fundamental_to_u"),
   ("to-u32", .fundamental "fundamental_to_u32"), ("to-float", .fundamental "fundamental_to_float"),
   ("to-i64", .fundamental "fundamental_to_i64"), ("to-u64", .fundamental "fundamental_to_u64"),
   ("to-double", .fundamental "fundamental_to_double"), ("to-byte", .fundamental "fundamental_to_byte"),
   ("shl", .fundamental "fundamental_shl"), ("shr", .fundamental "fundamental_shr"),
   ("bitwise-and", .fundamental "fundamental_bitwise_and"), ("bitwise-or", .fundamental "fundamental_bitwise_or"),
   ("bitwise-xor", .fundamental "fundamental_bitwise_xor"), ("bitwise-not", .fundamental "fundamental_bitwise_not"),
   ("custom-destruct", .fundamental "fundamental_custom_destruct"), ("type-of", .fundamental "fundamental_type_of"),
   ("length", .fundamental "fundamental_list_length"), ("range", .fundamental "fundamental_range"),
   ("event-register-handler", .fundamental "fundamental_reg_event_handler"), ("take", .fundamental "fundamental_take"),
   ("drop", .fundamental "fundamental_drop"), ("mkarray", .fundamental "fundamental_mkarray"),
   ("array-to-list", .fundamental "fundamental_array_to_list"), ("list-to-array", .fundamental "fundamental_list_to_array"),
   ("dm-create", .fundamental "fundamental_dm_create"), ("dm-alloc", .fundamental "fundamental_dm_alloc"),
   ("list?", .fundamental "fundamental_is_list"), ("number?", .fundamental "fundamental_is_number")]

end Verif.Sym
