/-
The table of built-in symbols (`src/symrepr.c:41-248`), with the numbers of `include/lbm_defines.h:147-367`
filled in, and the two tables of built-in functions. Generated from the source text.
-/

namespace Verif.Sym

/-- A name: the character codes before the terminating zero. -/
abbrev Name := List Nat

/-- A literal name. -/
def str (s : String) : Name := s.toList.map Char.toNat

/-- `special_symbols`, `src/symrepr.c:41-248`: name and id, in the order of the table. -/
def specialTable : List (Name × Nat) := [
  (str "nil", 0x0),
  (str "quote", 0x100),
  (str "t", 0x2),
  (str "if", 0x104),
  (str "cond", 0x110),
  (str "lambda", 0x103),
  (str "closure", 0x10f),
  (str "let", 0x105),
  (str "define", 0x101),
  (str "progn", 0x102),
  (str "read", 0x30001),
  (str "read-program", 0x30002),
  (str "read-eval-program", 0x30003),
  (str "match", 0x108),
  (str "_", 0x9),
  (str "send", 0x3000a),
  (str "recv", 0x109),
  (str "recv-to", 0x10a),
  (str "macro", 0x10d),
  (str "call-cc", 0x10b),
  (str "continuation", 0x10e),
  (str "var", 0x112),
  (str "timeout", 0xa),
  (str "set", 0x30000),
  (str "setq", 0x113),
  (str "move-to-flash", 0x114),
  (str "exit-ok", 0x3000b),
  (str "exit-error", 0x3000c),
  (str "map", 0x3000d),
  (str "reverse", 0x3000e),
  (str "flatten", 0x3000f),
  (str "unflatten", 0x30010),
  (str "kill", 0x30011),
  (str "sleep", 0x30012),
  (str "merge", 0x30013),
  (str "sort", 0x30014),
  (str "gc", 0x2000e),
  (str "loop", 0x115),
  (str "trap", 0x116),
  (str "rest-args", 0x30015),
  (str "rotate", 0x30016),
  (str "?", 0x41),
  (str "no_match", 0x40),
  (str "read_error", 0x20),
  (str "type_error", 0x21),
  (str "eval_error", 0x22),
  (str "out_of_memory", 0x23),
  (str "fatal_error", 0x26),
  (str "out_of_stack", 0x27),
  (str "division_by_zero", 0x25),
  (str "variable_not_bound", 0x24),
  (str "flash_full", 0x29),
  (str "$barray", 0x30),
  (str "$raw_i", 0x31),
  (str "$raw_u", 0x32),
  (str "$raw_f", 0x33),
  (str "$ind_i", 0x34),
  (str "$ind_u", 0x35),
  (str "$ind_f", 0x36),
  (str "$channel", 0x37),
  (str "$recovered", 0x28),
  (str "$placeholder", 0x2a),
  (str "$custom", 0x38),
  (str "$array", 0x39),
  (str "$nonsense", 0x3c),
  (str "$dm-array", 0x3b),
  (str "$dm", 0x3a),
  (str "[openpar]", 0x70),
  (str "[closepar]", 0x71),
  (str "[backquote]", 0x72),
  (str "[comma]", 0x73),
  (str "[commaat]", 0x74),
  (str "[dot]", 0x76),
  (str "[done]", 0x75),
  (str "[quote_it]", 0x77),
  (str "[colon]", 0x78),
  (str "[wait]", 0x79),
  (str "[openbrack]", 0x80),
  (str "[closebrack]", 0x81),
  (str "[rerror]", 0x82),
  (str "[appcont]", 0x111),
  (str "type-list", 0x50),
  (str "type-i", 0x51),
  (str "type-u", 0x52),
  (str "type-float", 0x53),
  (str "type-i32", 0x54),
  (str "type-u32", 0x55),
  (str "type-double", 0x56),
  (str "type-i64", 0x57),
  (str "type-u64", 0x58),
  (str "type-array", 0x59),
  (str "type-symbol", 0x5a),
  (str "type-char", 0x5b),
  (str "type-byte", 0x5c),
  (str "type-channel", 0x5e),
  (str "type-lisparray", 0x5f),
  (str "type-dm", 0x60),
  (str "type-custom", 0x61),
  (str "+", 0x20000),
  (str "-", 0x20001),
  (str "*", 0x20002),
  (str "/", 0x20003),
  (str "//", 0x20041),
  (str "mod", 0x20004),
  (str "=", 0x20007),
  (str "!=", 0x20008),
  (str "<", 0x20009),
  (str ">", 0x2000a),
  (str "<=", 0x2000b),
  (str ">=", 0x2000c),
  (str "eval", 0x30008),
  (str "eval-program", 0x30009),
  (str "and", 0x106),
  (str "or", 0x107),
  (str "not", 0x2000d),
  (str "yield", 0x30006),
  (str "wait", 0x30007),
  (str "spawn", 0x30004),
  (str "atomic", 0x10c),
  (str "self", 0x2000f),
  (str "spawn-trap", 0x30005),
  (str "set-mailbox-size", 0x20010),
  (str "eq", 0x20005),
  (str "not-eq", 0x20006),
  (str "car", 0x20012),
  (str "cdr", 0x20013),
  (str "cons", 0x20011),
  (str "list", 0x20014),
  (str "append", 0x20015),
  (str "undefine", 0x20016),
  (str "bufcreate", 0x20017),
  (str "type-of", 0x20034),
  (str "sym2str", 0x20018),
  (str "str2sym", 0x20019),
  (str "sym2u", 0x2001a),
  (str "u2sym", 0x2001b),
  (str "setcar", 0x2001c),
  (str "setcdr", 0x2001d),
  (str "setix", 0x2001e),
  (str "length", 0x20035),
  (str "range", 0x20036),
  (str "assoc", 0x2001f),
  (str "cossa", 0x20022),
  (str "acons", 0x20020),
  (str "setassoc", 0x20021),
  (str "shl", 0x2002d),
  (str "shr", 0x2002e),
  (str "bitwise-and", 0x2002f),
  (str "bitwise-or", 0x20030),
  (str "bitwise-xor", 0x20031),
  (str "bitwise-not", 0x20032),
  (str "custom-destruct", 0x20033),
  (str "to-i", 0x20024),
  (str "to-i32", 0x20025),
  (str "to-u", 0x20026),
  (str "to-u32", 0x20027),
  (str "to-float", 0x20028),
  (str "to-i64", 0x20029),
  (str "to-u64", 0x2002a),
  (str "to-double", 0x2002b),
  (str "to-byte", 0x2002c),
  (str "event-register-handler", 0x20037),
  (str "take", 0x20038),
  (str "drop", 0x20039),
  (str "mkarray", 0x2003a),
  (str "array-to-list", 0x2003b),
  (str "list-to-array", 0x2003c),
  (str "dm-create", 0x2003d),
  (str "dm-alloc", 0x2003e),
  (str "list?", 0x2003f),
  (str "number?", 0x20040),
  (str "ix", 0x20023),
  (str "first", 0x20012),
  (str "rest", 0x20013),
  (str "fn", 0x103),
  (str "def", 0x101),
  (str "true", 0x2),
  (str "false", 0x0),
  (str "setvar", 0x30000),
  (str "type-f32", 0x53),
  (str "type-f64", 0x56),
  (str "array-create", 0x20017)]

/-- `fundamental_table`, `src/fundamental.c:1440-1507`: the functions, by index. -/
def fundamentalTable : List String := [
  "fundamental_add",
  "fundamental_sub",
  "fundamental_mul",
  "fundamental_div",
  "fundamental_mod",
  "fundamental_eq",
  "fundamental_not_eq",
  "fundamental_numeq",
  "fundamental_num_not_eq",
  "fundamental_lt",
  "fundamental_gt",
  "fundamental_leq",
  "fundamental_geq",
  "fundamental_not",
  "fundamental_gc",
  "fundamental_self",
  "fundamental_set_mailbox_size",
  "fundamental_cons",
  "fundamental_car",
  "fundamental_cdr",
  "fundamental_list",
  "fundamental_append",
  "fundamental_undefine",
  "fundamental_buf_create",
  "fundamental_symbol_to_string",
  "fundamental_string_to_symbol",
  "fundamental_symbol_to_uint",
  "fundamental_uint_to_symbol",
  "fundamental_set_car",
  "fundamental_set_cdr",
  "fundamental_set_ix",
  "fundamental_assoc",
  "fundamental_acons",
  "fundamental_set_assoc",
  "fundamental_cossa",
  "fundamental_ix",
  "fundamental_to_i",
  "fundamental_to_i32",
  "fundamental_to_u",
  "fundamental_to_u32",
  "fundamental_to_float",
  "fundamental_to_i64",
  "fundamental_to_u64",
  "fundamental_to_double",
  "fundamental_to_byte",
  "fundamental_shl",
  "fundamental_shr",
  "fundamental_bitwise_and",
  "fundamental_bitwise_or",
  "fundamental_bitwise_xor",
  "fundamental_bitwise_not",
  "fundamental_custom_destruct",
  "fundamental_type_of",
  "fundamental_list_length",
  "fundamental_range",
  "fundamental_reg_event_handler",
  "fundamental_take",
  "fundamental_drop",
  "fundamental_mkarray",
  "fundamental_array_to_list",
  "fundamental_list_to_array",
  "fundamental_dm_create",
  "fundamental_dm_alloc",
  "fundamental_is_list",
  "fundamental_is_number",
  "fundamental_int_div"]

/-- `fun_table`, `src/eval_cps.c:3020-3045`: the functions, by index. -/
def funTable : List String := [
  "apply_setvar",
  "apply_read",
  "apply_read_program",
  "apply_read_eval_program",
  "apply_spawn",
  "apply_spawn_trap",
  "apply_yield",
  "apply_wait",
  "apply_eval",
  "apply_eval_program",
  "apply_send",
  "apply_ok",
  "apply_error",
  "apply_map",
  "apply_reverse",
  "apply_flatten",
  "apply_unflatten",
  "apply_kill",
  "apply_sleep",
  "apply_merge",
  "apply_sort",
  "apply_rest_args",
  "apply_rotate"]

end Verif.Sym
