import Verif.Eval.Machine
import Verif.Eval.OwnProps

/-!
# C122: the built-in functions on lists, as programs

Byte arrays, lisp arrays and constant (flash) cells are not in this store: the parts of the functions for them are left out. Numbers are atoms, and what
is known about them is a parameter.
-/

namespace Verif.Eval

/-- What the list functions need to know about numbers: `IS_NUMBER`, `lbm_dec_as_i32`, `lbm_dec_as_u32`, `lbm_enc_i` (`include/heap.h`), and the functions that take and
return numbers (and other values without parts), by the id of the symbol. -/
structure Nums where
  isNum : V → Bool
  i32 : V → Int
  u32 : V → Nat
  enc : Nat → V
  fns : Nat → Option (List V → V)

namespace Builtin

/-- `lbm_is_list`, `include/heap.h:940-942`. -/
def isList (v : V) : Bool := v.isCons || decide (v = .nil)

def hd (l : List V) : V := l.headD .nil
def snd (l : List V) : V := (l.drop 1).headD .nil

/-- The number in a register for a counter. -/
def cnt : V → Nat
  | .u n => n
  | _ => 0

/-- Return a constant. -/
def const (v : V) : FProg := .comp 20 [] (fun _ => v) (.ret 20)

/-- `nargs == n`. -/
def nargs (n : Nat) (p q : FProg) : FProg := .test [0] (fun l => decide (cnt (hd l) = n)) p q

def ifList (r : Nat) (p q : FProg) : FProg := .test [r] (fun l => isList (hd l)) p q
def ifCons (r : Nat) (p q : FProg) : FProg := .test [r] (fun l => (hd l).isCons) p q
/-- The counter in a register is 0. -/
def ifZero (r : Nat) (p q : FProg) : FProg := .test [r] (fun l => decide (cnt (hd l) = 0)) p q
def incr (r : Nat) (k : FProg) : FProg := .comp r [r] (fun l => .u (cnt (hd l) + 1)) k
def decr (r : Nat) (k : FProg) : FProg := .comp r [r] (fun l => .u (cnt (hd l) - 1)) k
def zero (r : Nat) (k : FProg) : FProg := .comp r [] (fun _ => .u 0) k

variable (nm : Nums)

/-- The programs. The functions have the ids of their symbols as labels (`include/lbm_defines.h:272-335`), loops have small numbers. -/
def code : Nat → FProg
  /- `fundamental_cons`, `src/fundamental.c:645-654` -/
  | 0x20011 => nargs 2 (.cons 10 1 2 (.ret 10)) (const .eerror)
  /- `fundamental_car`, `src/fundamental.c:656-670` -/
  | 0x20012 => nargs 1 (.car 10 1 (.ret 10)) (const .eerror)
  /- `fundamental_cdr`, `src/fundamental.c:672-686` -/
  | 0x20013 => nargs 1 (.cdr 10 1 (.ret 10)) (const .eerror)
  /- `fundamental_list`, `src/fundamental.c:688-697` -/
  | 0x20014 => .comp 10 [] (fun _ => .nil) (.move 13 0 (.goto 1))
  | 1 => ifZero 13 (.ret 10) (decr 13 (.arg 14 13 (.cons 10 14 10 (.goto 1))))
  /- `fundamental_append`, `src/fundamental.c:699-724` -/
  | 0x20015 => nargs 0 (const .nil) (decr 0 (.arg 10 0 (ifZero 0 (ifList 10 (.ret 10) (const .terror)) (.move 13 0 (.goto 2)))))
  | 2 => ifZero 13 (.ret 10) (decr 13 (.arg 14 13 (ifList 14 (zero 15 (.move 11 14 (.goto 3))) (const .terror))))
  | 3 => ifCons 11 (incr 15 (.cdr 11 11 (.goto 3))) (.goto 4)
  | 4 => ifZero 15 (.goto 2) (decr 15 (.move 11 14 (.move 12 15 (.goto 5))))
  /- `lbm_index_list`, `src/heap.c:1177-1198`, for a number that is not negative -/
  | 5 => .test [11, 12] (fun l => (hd l).isCons && decide (cnt (snd l) > 0)) (.cdr 11 11 (decr 12 (.goto 5)))
      (ifCons 11 (.car 16 11 (.cons 10 16 10 (.goto 4))) (.comp 16 [] (fun _ => .nil) (.cons 10 16 10 (.goto 4))))
  /- `fundamental_set_car`, `fundamental_set_cdr`, `src/fundamental.c:830-846` -/
  | 0x2001C => nargs 2 (ifCons 1 (.setCar 1 2 (const .tru)) (const .nil)) (const .eerror)
  | 0x2001D => nargs 2 (ifCons 1 (.setCdr 1 2 (const .tru)) (const .nil)) (const .eerror)
  /- `fundamental_set_ix`, `src/fundamental.c:848-886`: register 12 is `ix`, which is huge for a negative `ix_pre`, 13 is `i` -/
  | 0x2001E => nargs 3 (.test [2] (fun l => nm.isNum (hd l)) (ifList 1 (zero 15 (.move 11 1 (.goto 6))) (const .terror)) (const .terror)) (const .terror)
  | 6 => ifCons 11 (incr 15 (.cdr 11 11 (.goto 6)))
      (.comp 17 [2, 15] (fun l => .u (if nm.i32 (hd l) < 0 ∧ cnt (snd l) + nm.i32 (hd l) < 0 then 1 else 0))
        (.comp 12 [2, 15] (fun l => .u (if nm.i32 (hd l) < 0 then cnt (snd l) + nm.i32 (hd l) else nm.i32 (hd l)).toNat) (zero 13 (.move 11 1 (.goto 7)))))
  | 7 => ifCons 11
      (.cdr 18 11 (.test [12, 13, 17] (fun l => decide (cnt (hd l) = cnt (snd l) ∧ cnt ((l.drop 2).headD .nil) = 0)) (.setCar 11 3 (.ret 1))
        (.test [18] (fun l => decide (hd l = .nil)) (const .nil) (.move 11 18 (incr 13 (.goto 7))))))
      (const .terror)
  /- `fundamental_assoc`, `src/fundamental.c:888-906`, and `assoc_lookup`, 318-335 -/
  | 0x2001F => nargs 2 (ifCons 1 (.move 11 1 (.goto 8)) (.test [1] (fun l => decide (hd l = .nil)) (.ret 1) (const .eerror))) (const .eerror)
  | 8 => ifCons 11 (.car 12 11 (ifCons 12 (.car 13 12 (.eqv 13 2 (.cdr 14 12 (.test [14] (fun l => decide (hd l = .noMatch)) (const .nil) (.ret 14))) (.cdr 11 11 (.goto 8)))) (const .eerror)))
      (const .nil)
  /- `fundamental_acons`, `src/fundamental.c:908-924` -/
  | 0x20020 => nargs 3 (.cons 10 1 2 (.cons 10 10 3 (.ret 10))) (nargs 2 (.cons 10 1 2 (.ret 10)) (const .eerror))
  /- `fundamental_set_assoc`, `src/fundamental.c:926-937`, `lbm_env_set_functional`, `src/env.c:120-139`, `lbm_env_set`, `src/env.c:95-118` -/
  | 0x20021 => nargs 3 (.cons 10 2 3 (.move 11 1 (.goto 9))) (nargs 2 (ifCons 2 (.car 3 2 (.cdr 4 2 (.move 11 1 (.goto 10)))) (const .eerror)) (const .eerror))
  | 9 => ifCons 11 (.car 12 11 (.car 12 12 (.same 12 2 (.setCar 11 10 (.ret 1)) (.cdr 11 11 (.goto 9))))) (.cons 10 10 1 (.ret 10))
  | 10 => ifCons 11 (.car 12 11 (.car 13 12 (.same 13 3 (.setCdr 12 4 (.ret 1)) (.cdr 11 11 (.goto 10))))) (.cons 10 3 4 (.cons 10 10 1 (.ret 10)))
  /- `fundamental_cossa`, `src/fundamental.c:939-957`, and `cossa_lookup`, 337-351 -/
  | 0x20022 => nargs 2 (ifCons 1 (.move 11 1 (.goto 11)) (.test [1] (fun l => decide (hd l = .nil)) (.ret 1) (const .eerror))) (const .eerror)
  | 11 => ifCons 11 (.car 12 11 (ifCons 12 (.cdr 13 12 (.eqv 13 2 (.car 14 12 (.test [14] (fun l => decide (hd l = .noMatch)) (const .nil) (.ret 14))) (.cdr 11 11 (.goto 11)))) (const .eerror)))
      (const .nil)
  /- `fundamental_ix`, `src/fundamental.c:959-976`, and `lbm_index_list` -/
  | 0x20023 => nargs 2 (.test [2] (fun l => nm.isNum (hd l)) (ifList 1 (zero 15 (.move 11 1 (.goto 12))) (const .eerror)) (const .eerror)) (const .eerror)
  | 12 => ifCons 11 (incr 15 (.cdr 11 11 (.goto 12)))
      (.test [2, 15] (fun l => decide (nm.i32 (hd l) < 0 ∧ cnt (snd l) + nm.i32 (hd l) < 0)) (const .nil)
        (.comp 12 [2, 15] (fun l => .u (if nm.i32 (hd l) < 0 then cnt (snd l) + nm.i32 (hd l) else nm.i32 (hd l)).toNat) (.move 11 1 (.goto 13))))
  | 13 => .test [11, 12] (fun l => (hd l).isCons && decide (cnt (snd l) > 0)) (.cdr 11 11 (decr 12 (.goto 13))) (ifCons 11 (.car 10 11 (.ret 10)) (const .nil))
  /- `fundamental_list_length`, `src/fundamental.c:1242-1259`, and `lbm_list_length`, `src/heap.c:1062-1070` -/
  | 0x20035 => nargs 1 (ifList 1 (zero 15 (.move 11 1 (.goto 14))) (const .terror)) (const .eerror)
  | 14 => ifCons 11 (incr 15 (.cdr 11 11 (.goto 14))) (.comp 10 [15] (fun l => nm.enc (cnt (hd l))) (.ret 10))
  /- `fundamental_take`, `src/fundamental.c:1312-1320`, and `lbm_list_copy`, `src/heap.c:1124-1148`: register 15 is `n`, 12 is `copy_n`, the new list is made first -/
  | 0x20038 => nargs 2 (.test [2] (fun l => nm.isNum (hd l)) (ifList 1 (zero 15 (.move 11 1 (.goto 15))) (const .terror)) (const .terror)) (const .terror)
  | 15 => ifCons 11 (incr 15 (.cdr 11 11 (.goto 15)))
      (.comp 12 [2, 15] (fun l => .u (if 0 ≤ nm.i32 (hd l) ∧ nm.i32 (hd l) < cnt (snd l) then (nm.i32 (hd l)).toNat else cnt (snd l)))
        (.comp 10 [] (fun _ => .nil) (.move 13 12 (.goto 16))))
  | 16 => ifZero 13 (.move 11 1 (.move 14 10 (.goto 17))) (decr 13 (.comp 16 [] (fun _ => .nil) (.cons 10 16 10 (.goto 16))))
  | 17 => .test [11, 12] (fun l => (hd l).isCons && decide (cnt (snd l) > 0)) (.car 16 11 (.setCar 14 16 (.cdr 14 14 (.cdr 11 11 (decr 12 (.goto 17)))))) (.ret 10)
  /- `fundamental_drop`, `src/fundamental.c:1322-1329`, and `lbm_list_drop`, `src/heap.c:1167-1175` -/
  | 0x20039 => nargs 2 (.test [2] (fun l => nm.isNum (hd l)) (ifList 1 (.comp 12 [2] (fun l => .u (nm.u32 (hd l))) (.move 11 1 (.goto 18))) (const .terror)) (const .terror)) (const .terror)
  | 18 => .test [11, 12] (fun l => (hd l).isCons && decide (cnt (snd l) > 0)) (.cdr 11 11 (decr 12 (.goto 18))) (.ret 11)
  /- `fundamental_not`, `src/fundamental.c:604-611` -/
  | 0x2000D => nargs 1 (.comp 10 [1] (fun l => if hd l = .nil then .tru else .nil) (.ret 10)) (const .eerror)
  /- `fundamental_eq`, `src/fundamental.c:475-487`, for at least one argument: register 12 is `i` -/
  | 0x20005 => .comp 12 [] (fun _ => .u 1) (.goto 19)
  | 19 => .test [12, 0] (fun l => decide (cnt (hd l) < cnt (snd l))) (.arg 13 12 (.eqv 1 13 (incr 12 (.goto 19)) (const .nil))) (const .tru)
  /- `fundamental_is_list`, `src/fundamental.c:1406-1413` -/
  | 0x2003F => nargs 1 (.comp 10 [1] (fun l => if isList (hd l) then .tru else .nil) (.ret 10)) (const .terror)
  | _ => const .eerror

/-- All of them, and the functions on numbers. -/
def prims (fuel : Nat) : Prims where
  run n args env s :=
    match nm.fns n with
    | some f => cellRes s (f (args.map V.shape)).flat
    | none => (progPrims fuel (code nm)).run n args env s
  eq := (progPrims fuel (code nm)).eq

theorem RL.shapes {ρ : Ren} {l l' : List V} (h : RL ρ l l') : l.map V.shape = l'.map V.shape := by
  induction h with
  | nil => rfl
  | cons hx _ ih => rw [List.map_cons, List.map_cons, hx.shape, ih]

/-! ## The theorems -/

/-- C122: the built-in functions change no cell that cannot be reached from their arguments (or by others), and make no reference to it: with cells `N` that nothing outside of `N` refers to,
and arguments that are not in `N`, the cells of `N` are as before and there is no reference to them, neither in the result nor elsewhere. -/
theorem C122_local (fuel : Nat) : Local (prims nm fuel) := by
  intro N n args env s h ha he
  simp only [prims]
  split
  · exact cellRes_local h (kept_refl _) (away_flat _)
  · exact progPrims_local fuel (code nm) N n args env s h ha he

/-- C122: the results of the built-in functions do not depend on the addresses of cells or on garbage: in two stores that are the same except for this, with arguments that are the same except
for this, the results and the stores afterwards are the same except for this. -/
theorem C122_blind (fuel : Nat) : Blind (prims nm fuel) := by
  refine ⟨fun ρ n args args' env env' s s' h ha he => ?_, (progPrims_blind fuel (code nm)).eq⟩
  simp only [prims]
  split
  · rw [RL.shapes ha]
    exact ⟨ρ, .refl ρ, cellRes_blind h (rv_flat _)⟩
  · exact (progPrims_blind fuel (code nm)).run ρ n args args' env env' s s' h ha he

/-- C122: programs that use these functions give the same result whether or not memory is collected while they run. No condition on the functions is left. -/
theorem C122_collections (fuel : Nat) (sz : Option Nat) {m0 : M} (h0 : Allocated m0) {n : Nat} {o : Out}
    (h : Interrupted sz (prims nm fuel) (fun m m' => m.st.next ≤ m'.st.next) (.next m0) n o) {s : St} {v : V} {b : Bool} (hf : steps sz (prims nm fuel) n (.next m0) = .fin s v b) :
    ∃ s' v', o = .fin s' v' b ∧ SameResult s v s' v' := C90_collections (C122_blind nm fuel) sz h0 h hf

/-- C122: they do not change cells that they cannot reach. -/
theorem C122_untouched (fuel : Nat) {m : M} (h : Sound m) {c : Nat} (hc : c < m.st.next) (hu : ¬ Reaches m.st m.roots c) (sz : Option Nat) (n : Nat) :
    match steps sz (prims nm fuel) n (.next m) with
    | .next m' => m'.st.car c = m.st.car c ∧ m'.st.cdr c = m.st.cdr c ∧ ¬ Reaches m'.st m'.roots c
    | .fin s v _ => s.car c = m.st.car c ∧ s.cdr c = m.st.cdr c ∧ ¬ Reaches s (fun x => x = v ∨ s.shared x) c
    | _ => True := C87_untouched (C122_local nm fuel) h hc hu sz n

end Builtin
end Verif.Eval
