import Verif.Str.Conv

/-!
# Which calls are safe
-/

namespace Verif.Str

open Verif.Val (Build payload)
open Verif.Arith

variable {b : Build} {F : FOps} {S : Type} {A : Alloc S}

/-- The size of the strings of a list and the separators between them, every string counted with its
terminator. -/
def joinSize (sep : Nat) : Arg b → Nat
  | .cons (.arr d) r => (text d).length + sep + 1 + joinSize sep r
  | _ => 0

theorem strLen_safe (args : List (Arg b)) : strLen args ≠ none := by
  unfold strLen
  split
  · split
    · simp [terror]
    · rw [strlenMax_eq]; simp
  · simp [eerror]

theorem strPart_safe (s : S) {args : List (Arg b)} (h : ∀ a ∈ args, Sized (2 ^ 32 - 2) a) : strPart F A s args ≠ none := by
  have key : ∀ (x st : Arg b) n?, Sized (2 ^ 32 - 2) x → strPart.go F A s x st n? ≠ none := by
    intro x st n? hx
    unfold strPart.go
    split
    · simp [terror]
    · split
      · simp [terror]
      · rename_i d hd
        rw [strlenMax_eq, Option.bind_some]
        have hd' : d.length ≤ 2 ^ 32 - 2 := by
          cases x <;> simp [decStrSize] at hd
          subst hd; exact hx
        have hl := text_length_le d
        rw [Nat.mod_eq_of_lt (by omega)]
        have hfin : ∀ n, (decAsU32 F st.val).toNat + n ≤ (text d).length → (strPart.fin A s d (decAsU32 F st.val).toNat n : Option (Arg b)) ≠ none := by
          intro n hn
          have := fin_part (A := A) (b := b) (s := s) (d := d) hn (by omega)
          rw [show strPart.fin A s d _ n = _ from this]; simp
        simp only
        split
        · simp [eerror]
        · split
          · exact hfin _ (by omega)
          · split
            · simp [terror]
            · exact hfin _ (by omega)
  unfold strPart
  split
  · exact key _ _ _ (h _ (by simp))
  · exact key _ _ _ (h _ (by simp))
  · simp [terror]

theorem changeCase_safe (s : S) (up : Bool) (args : List (Arg b)) : changeCase A s up args ≠ none := by
  unfold changeCase
  split
  · rename_i x
    cases x with
    | arr d =>
      have := changeCase_eq (A := A) (b := b) (s := s) up d
      unfold Gives changeCase at this
      simp only [decStrSize] at this ⊢
      rw [this]; simp
    | v x => simp [decStrSize, terror]
    | cons a d => simp [decStrSize, terror]
  · simp [eerror]

theorem minSub_arrs : ∀ (l : Arg b) (m m' : Int), minSub l m = some m' → ∃ (subs : List (List Byte)) (tail : Arg b), l = listTo (subs.map .arr) tail ∧ ∀ a d, tail ≠ .cons a d
  | .v x, _, _, _ => ⟨[], .v x, rfl, by simp⟩
  | .arr x, _, _, _ => ⟨[], .arr x, rfl, by simp⟩
  | .cons (.arr x) d, m, m', h => by
    have : ∃ m, minSub d m = some m' := by
      unfold minSub at h; split at h <;> exact ⟨_, h⟩
    obtain ⟨m2, h2⟩ := this
    obtain ⟨subs, tail, e, ht⟩ := minSub_arrs d m2 m' h2
    exact ⟨x :: subs, tail, by rw [e]; rfl, ht⟩
  | .cons (.v _) d, m, m', h => by simp [minSub] at h
  | .cons (.cons _ _) d, m, m', h => by simp [minSub] at h

theorem search_safe {sl sn : Nat} {d : List Byte} {subs : List (List Byte)} {tail : Arg b} (ht : ∀ a d, tail ≠ .cons a d) {m : Int} {args : List (Arg b)} :
    strFind.search F sl sn d (listTo (subs.map .arr) tail) m args ≠ none := by
  unfold strFind.search
  simp only
  split
  · rw [findRight_eq ht]; simp
  · rw [findLeft_eq ht]; simp

theorem strFind_safe (sl sn : Nat) (s : S) (args : List (Arg b)) : strFind F A sl sn s args ≠ none := by
  unfold strFind
  split
  · rename_i x y rest
    split
    · simp [eerror]
    · split
      · simp [terror]
      · rename_i d hd
        split
        · rename_i sub
          split
          · simp [merror]
          · split
            · simp
            · exact search_safe (subs := [sub]) (tail := nil) (by simp [nil])
        · split
          · split
            · simp [terror]
            · rename_i m hm
              obtain ⟨subs, tail, e, ht⟩ := minSub_arrs _ _ _ hm
              rw [e]
              exact search_safe ht
          · simp [terror]
  · simp [eerror]

/-! ## With terminated strings -/

theorem decStr_eq {x : Arg b} {d : List Byte} (h : decStr x = some d) : x = .arr d := by
  cases x with
  | v x => simp [decStr] at h
  | cons a t => simp [decStr] at h
  | arr l =>
    cases l with
    | nil => simp [decStr] at h
    | cons x t => simp only [decStr, Option.some.injEq] at h; rw [h]

theorem decStrSize_eq {x : Arg b} {d : List Byte} (h : decStrSize x = some d) : x = .arr d := by
  cases x <;> simp [decStrSize] at h
  rw [h]

theorem strCmp_safe {args : List (Arg b)} (h : ∀ a ∈ args, Terminated a) : strCmp F args ≠ none := by
  have key : ∀ (x y : Arg b) n?, Terminated x → Terminated y → strCmp.go F x y n? ≠ none := by
    intro x y n? hx hy
    have hfin : ∀ s1 s2 : List Byte, 0 ∈ s1 → 0 ∈ s2 → ∀ n, (strCmp.fin s1 s2 n : Option (Arg b)) ≠ none := by
      intro s1 s2 h1 h2 n
      unfold strCmp.fin
      split
      · obtain ⟨z, e, _⟩ := strncmp_eq (n := n.toNat) h1 h2
        rw [e]; simp
      · obtain ⟨z, e, _⟩ := strcmp_eq h1 h2
        rw [e]; simp
    unfold strCmp.go
    split
    · simp [terror]
    · rename_i s1 e1
      split
      · simp [terror]
      · rename_i s2 e2
        rw [decStr_eq e1] at hx
        rw [decStr_eq e2] at hy
        split
        · exact hfin _ _ hx hy _
        · split
          · simp [terror]
          · exact hfin _ _ hx hy _
  unfold strCmp
  split
  · exact key _ _ _ (h _ (by simp)) (h _ (by simp))
  · exact key _ _ _ (h _ (by simp)) (h _ (by simp))
  · simp [eerror]

theorem strToI_safe (ok : Bool) {args : List (Arg b)} (h : ∀ a ∈ args, Terminated a) : strToI F ok args ≠ none := by
  have key : ∀ (x : Arg b) n?, Terminated x → strToI.go F ok x n? ≠ none := by
    intro x n? hx
    unfold strToI.go
    split
    · simp [terror]
    · rename_i d e
      rw [decStr_eq e] at hx
      have hfin : ∀ base, (strToI.fin ok d base : Option (Arg b)) ≠ none := by
        intro base
        unfold strToI.fin
        rw [cstr_eq hx]; simp
      split
      · exact hfin _
      · split
        · exact hfin _
        · simp [terror]
  unfold strToI
  split
  · exact key _ _ (h _ (by simp))
  · exact key _ _ (h _ (by simp))
  · simp [eerror]

theorem strSplit_safe (s : S) {args : List (Arg b)} (h : ∀ a ∈ args, Terminated a) (hs : ∀ a ∈ args, Sized (2 ^ 30) a) : strSplit F A s args ≠ none := by
  unfold strSplit
  split
  · rename_i x sp
    cases hx : decStrSize x with
    | none => simp [terror]
    | some d =>
      have ex := decStrSize_eq hx
      subst ex
      have hd : 0 ∈ d := h (.arr d) (by simp)
      have hl : d.length ≤ 2 ^ 30 := hs (.arr d) (by simp)
      cases hsp : decStr sp with
      | some split =>
        have es := decStr_eq hsp
        subst es
        have hsp' : 0 ∈ split := h (.arr split) (by simp)
        obtain ⟨r, e, _⟩ := strSplit_chars (F := F) (A := A) (b := b) (s := s) hd hsp'
        simp only [strSplit, decStrSize, hsp] at e
        simp only
        rw [e]; simp
      | none =>
        cases hnum : sp.isNumber with
        | false => simp [terror]
        | true =>
          obtain ⟨r, e, _⟩ := strSplit_any (F := F) (A := A) (s := s) (d := d) hl hnum
          simp only [strSplit, decStrSize, hsp, hnum] at e
          simp only
          rw [e]; simp
  · simp [eerror]

theorem ReplacedN.of {pat rep t r : List Byte} (h : Replaced pat rep t r) : ∃ k, ReplacedN pat rep k t r := by
  induction h with
  | none h => exact ⟨0, .none h⟩
  | first h _ ih => obtain ⟨k, hk⟩ := ih; exact ⟨k + 1, .first h hk⟩

theorem ReplacedN.count_le {pat rep t r : List Byte} {k : Nat} (hp : pat ≠ []) (h : ReplacedN pat rep k t r) : k ≤ t.length := by
  induction h with
  | none => omega
  | first h _ ih =>
    have : 0 < pat.length := by cases pat; exact absurd rfl hp; simp
    simp only [List.length_append]; omega

theorem Replaced.length_le {pat rep t r : List Byte} (hp : pat ≠ []) (h : Replaced pat rep t r) : r.length ≤ t.length * (rep.length + 1) := by
  obtain ⟨k, hk⟩ := ReplacedN.of h
  have h1 := hk.length
  have h2 := hk.count_le hp
  have h3 : k * rep.length ≤ t.length * rep.length := Nat.mul_le_mul_right _ h2
  rw [Nat.mul_add]
  omega

theorem strReplace_safe (s : S) {n : Nat} (hn : n * n < 2 ^ b.w) {args : List (Arg b)} (h : ∀ a ∈ args, Terminated a) (hs : ∀ a ∈ args, Sized n a) :
    strReplace A s args ≠ none := by
  have hfin : ∀ o : Arg b, ∀ orig rep wth : List Byte, ∀ wsize, 0 ∈ orig → 0 ∈ rep → orig.length ≤ n → (text wth).length + 1 ≤ n →
      strlenMax wth wsize = some (text wth).length → strReplace.fin A s o orig rep wth wsize ≠ none := by
    intro o orig rep wth wsize ho hr hlo hlw hw
    by_cases h1 : text rep = []
    · unfold strReplace.fin
      rw [strlenMax_eq, Option.bind_some, h1]
      simp
    · obtain ⟨r, _, hg⟩ := strReplace_fin (A := A) (s := s) (o := o) ho hr h1 hw (by
        intro r hr
        have h2 := hr.length_le h1
        have h3 := text_lt ho
        have h4 : (text orig).length * ((text wth).length + 1) ≤ (text orig).length * n := Nat.mul_le_mul_left _ hlw
        have h5 : ((text orig).length + 1) * n ≤ n * n := Nat.mul_le_mul_right _ (by omega)
        rw [Nat.succ_mul] at h5
        omega)
      unfold Gives at hg
      rw [hg]; simp
  have key : ∀ (o r : Arg b) w?, Terminated o → Terminated r → (∀ w, w? = some w → Terminated w) → Sized n o → (∀ w, w? = some w → Sized n w) → strReplace.go A s o r w? ≠ none := by
    intro o r w? ho hr hw so sw
    unfold strReplace.go
    split
    · simp [terror]
    · rename_i orig e1
      split
      · simp [terror]
      · rename_i rep e2
        rw [decStrSize_eq e1] at ho so
        rw [decStrSize_eq e2] at hr
        have hlo := text_lt ho
        have so' : orig.length ≤ n := so
        split
        · exact hfin _ _ _ _ _ ho hr so (by simp [text]; omega) rfl
        · rename_i w
          split
          · simp [terror]
          · rename_i wth e3
            have hw' := hw w rfl
            have sw' := sw w rfl
            rw [decStrSize_eq e3] at hw' sw'
            have hlw := text_lt hw'
            have sw'' : wth.length ≤ n := sw'
            exact hfin _ _ _ _ _ ho hr so (by omega) (strlenMax_eq wth)
  unfold strReplace
  split
  · exact key _ _ _ (h _ (by simp)) (h _ (by simp)) (by simp) (hs _ (by simp)) (by simp)
  · refine key _ _ _ (h _ (by simp)) (h _ (by simp)) ?_ (hs _ (by simp)) ?_
    · intro w hw; cases hw; exact h _ (by simp)
    · intro w hw; cases hw; exact hs _ (by simp)
  · simp [eerror]

theorem joinScan_cases : ∀ (l : Arg b) (len cnt : Nat), joinScan l len cnt = some none ∨ ∃ (ds : List (List Byte)) (tail : Arg b), l = listTo (ds.map .arr) tail ∧ ∀ a d, tail ≠ .cons a d
  | .v x, _, _ => .inr ⟨[], .v x, rfl, by simp⟩
  | .arr x, _, _ => .inr ⟨[], .arr x, rfl, by simp⟩
  | .cons (.arr x) d, len, cnt => by
    rcases joinScan_cases d ((len + (text x).length) % 2 ^ b.w) ((cnt + 1) % 2 ^ b.w) with h | ⟨ds, tail, e, ht⟩
    · exact .inl (by unfold joinScan; simp only [decStrSize, strlenMax_eq, Option.bind_some, h])
    · exact .inr ⟨x :: ds, tail, by rw [e]; rfl, ht⟩
  | .cons (.v _) d, _, _ => .inl (by simp [joinScan, decStrSize])
  | .cons (.cons _ _) d, _, _ => .inl (by simp [joinScan, decStrSize])

theorem joinSize_eq {sep : Nat} {tail : Arg b} (ht : ∀ a d, tail ≠ .cons a d) (ds : List (List Byte)) :
    joinSize sep (listTo (ds.map .arr) tail) = total ds + ds.length * sep + ds.length := by
  induction ds with
  | nil =>
    cases tail with
    | cons a d => exact absurd rfl (ht a d)
    | v x => simp [joinSize, listTo, total]
    | arr x => simp [joinSize, listTo, total]
  | cons x t ih =>
    simp only [List.map_cons, listTo, joinSize, ih, List.length_cons]
    have : total (x :: t) = (text x).length + total t := by simp [total]
    rw [this, Nat.succ_mul]
    omega

/-- How many bytes the separator has. -/
def sepLen : List (Arg b) → Nat
  | [_, .arr d] => (text d).length
  | _ => 0

theorem strJoin_safe (s : S) {args : List (Arg b)} (h : ∀ a ∈ args, Terminated a) (hs : ∀ l ∈ args.head?, joinSize (sepLen args) l + 1 < 2 ^ b.w) :
    strJoin A s args ≠ none := by
  have key : ∀ (l : Arg b) (d? : Option (Arg b)) (delim : List Byte), 0 ∈ delim → (d? = none ∧ delim = [0] ∨ (∃ d, d? = some d ∧ decStr d = some delim)) →
      joinSize (text delim).length l + 1 < 2 ^ b.w → strJoin.go A s l d? ≠ none := by
    intro l d? delim hz hd hsz
    unfold strJoin.go
    split
    · simp [terror]
    · rcases joinScan_cases l 0 0 with e | ⟨ds, tail, e, ht⟩
      · rw [e, Option.bind_some]; simp [terror]
      · subst e
        rw [joinSize_eq ht] at hsz
        have hj := joined_length (text delim) ds
        have hm : (ds.length - 1) * (text delim).length ≤ ds.length * (text delim).length := Nat.mul_le_mul_right _ (by omega)
        rw [joinScan_eq ht ds 0 0 (by omega) (by omega), Option.bind_some]
        have := strJoin_fin (A := A) (s := s) ht hz ds (by omega) (by omega)
        unfold Gives at this
        rcases hd with ⟨rfl, rfl⟩ | ⟨d, rfl, hd⟩
        · simp only [Nat.zero_add]
          rw [this]; simp
        · simp only [Nat.zero_add, hd]
          rw [this]; simp
  unfold strJoin
  split
  · rename_i l
    exact key l none [0] (by simp) (.inl ⟨rfl, rfl⟩) (hs l (by simp))
  · rename_i l d
    cases e : decStr d with
    | none =>
      unfold strJoin.go
      split
      · simp [terror]
      · rcases joinScan_cases l 0 0 with e2 | ⟨ds, tail, e2, ht⟩
        · rw [e2, Option.bind_some]; simp [terror]
        · subst e2
          have hsz := hs (listTo (ds.map .arr) tail) (by simp)
          rw [joinSize_eq ht] at hsz
          rw [joinScan_eq ht ds 0 0 (by omega) (by omega), Option.bind_some]
          simp [e, terror]
    | some delim =>
      have e2 := decStr_eq e
      subst e2
      exact key l _ delim (h (.arr delim) (by simp)) (.inr ⟨_, rfl, e⟩) (hs l (by simp))
  · simp [eerror]

theorem strReplicate_safe (s : S) {args : List (Arg b)} (h : ∀ n ∈ args.head?, (decAsU32 F n.val).toNat ≠ 2 ^ 32 - 1) : strReplicate F A s args ≠ none := by
  unfold strReplicate
  split
  · rename_i n c
    split
    · have hk := h n (by simp)
      have := (decAsU32 F n.val).isLt
      generalize (decAsU32 F n.val).toNat = k at hk this
      simp only
      rw [Nat.mod_eq_of_lt (by omega)]
      split
      · simp [merror]
      · rw [writeAt_zeros0 (by simp)]
        simp only [Option.bind_some]
        have e : List.replicate k (decAsChar F c.val) ++ zeros (k + 1 - (List.replicate k (decAsChar F c.val)).length) =
            List.replicate k (decAsChar F c.val) ++ [0] ++ [] := by
          simp [zeros]
        have h2 := writeAt_eq (p := List.replicate k (decAsChar F c.val)) (e := [0]) (r := []) (d := [0]) rfl
        rw [List.length_replicate] at h2
        rw [e, h2]; simp
    · simp [terror]
  · simp [eerror]

theorem strncpySrc_some : ∀ {n : Nat} {d : List Byte}, n ≤ d.length → ∃ r, strncpySrc d n = some r ∧ r.length = n := by
  intro n
  induction n with
  | zero => intro d _; exact ⟨[], by unfold strncpySrc; rfl, rfl⟩
  | succ n ih =>
    intro d h
    cases d with
    | nil => simp at h
    | cons x t =>
      unfold strncpySrc
      split
      · exact ⟨_, rfl, by simp⟩
      · obtain ⟨r, e, hr⟩ := ih (d := t) (by simpa using h)
        exact ⟨x :: r, by rw [e]; rfl, by simp [hr]⟩

theorem toStrLoop_safe {pr : Arg b → List Byte} {delim : List Byte} : ∀ (args : List (Arg b)) {ofs : Nat} {buf : List Byte}, ofs ≤ 299 → buf.length = 300 →
    ∃ ofs' buf', toStrLoop pr delim args ofs buf = some (ofs', buf') ∧ ofs' ≤ 299 ∧ buf'.length = 300 := by
  intro args
  induction args with
  | nil => intro ofs buf h1 h2; exact ⟨ofs, buf, rfl, h1, h2⟩
  | cons a t ih =>
    intro ofs buf h1 h2
    unfold toStrLoop
    simp only
    generalize (if ofs = 0 then pr a else delim ++ pr a) = u
    have : ∃ buf', snprintfAt buf ofs (300 - ofs - 1) u = some buf' ∧ buf'.length = 300 := by
      unfold snprintfAt
      split
      · exact ⟨buf, rfl, h2⟩
      · unfold writeAt
        rw [if_pos (by simp; omega)]
        refine ⟨_, rfl, ?_⟩
        simp; omega
    obtain ⟨buf', e, h3⟩ := this
    rw [e, Option.bind_some]
    exact ih (by split <;> omega) h3

theorem toStr_safe (pr : Arg b → List Byte) (delim : List Byte) {junk : Option (List Byte)} (hj : ∀ j, junk = some j → j.length = 300) (s : S) (args : List (Arg b)) :
    toStr A pr delim junk s args ≠ none := by
  unfold toStr
  cases junk with
  | none => simp [merror]
  | some j =>
    obtain ⟨ofs, buf, e, h1, h2⟩ := toStrLoop_safe (pr := pr) (delim := delim) args (ofs := 0) (buf := j) (by omega) (hj j rfl)
    simp only [e, Option.bind_some]
    split
    · simp [merror]
    · obtain ⟨r, e2, h3⟩ := strncpySrc_some (n := ofs + 1) (d := buf) (by omega)
      unfold strncpy
      rw [e2, Option.bind_some, writeAt_zeros0 (by omega)]
      simp

theorem strFromN_safe (fmtG : Num b → List Byte) (s : S) (args : List (Arg b)) : strFromN F A fmtG s args ≠ none := by
  have key : ∀ t : List Byte, (match A.arr s (min t.length 100 + 1) with
      | none => (merror : Option (Arg b))
      | some _ => (memcpy (zeros (min t.length 100 + 1)) 0 (t.take 99 ++ [0]) (min t.length 100)).bind fun d =>
          (writeAt d (min t.length 100) [0]).map .arr) ≠ none := by
    intro t
    have := gives_fill (A := A) (b := b) (s := s) (d := t.take 99 ++ [0]) (n := min t.length 100) (by simp; omega)
    unfold Gives at this
    cases hA : A.arr s (min t.length 100 + 1) with
    | none => simp [merror]
    | some s' =>
      simp only [hA] at this ⊢
      rw [this]; simp
  unfold strFromN
  split
  · rename_i x
    cases x with
    | arr d => simp [terror]
    | cons a d => simp [terror]
    | v x =>
      cases x with
      | num n => exact key _
      | _ => simp [terror]
  · simp [eerror]

end Verif.Str
