import Verif.Eq.Spec

/-!
# C29, C59: structural equality and association lists
-/

namespace Verif.Eq

variable {F : Flt} {H : Heap}

theorem arrLoop_mono {eq eq' : Val → Val → Option Bool} {r : Bool}
    (h : ∀ a c b, eq a c = some b → eq' a c = some b) :
    ∀ l m, arrLoop eq l m = some r → arrLoop eq' l m = some r := by
  intro l
  induction l with
  | nil => intro m hr; simpa [arrLoop] using hr
  | cons x xs ih =>
    intro m hr
    cases m with
    | nil => simpa [arrLoop] using hr
    | cons y ys =>
      simp only [arrLoop] at hr ⊢
      rcases hb : eq x y with _ | b
      · simp [hb] at hr
      · rw [h _ _ _ hb]
        rw [hb] at hr
        cases b
        · exact hr
        · exact ih _ hr

theorem structEq_mono {r : Bool} : ∀ {f : Nat} {a c : Val}, structEq F H f a c = some r →
    structEq F H (f + 1) a c = some r := by
  intro f
  induction f generalizing r with
  | zero => intro a c h; cases h
  | succ f ih =>
    intro a c h
    rw [structEq.eq_def] at h
    rw [structEq.eq_def]
    dsimp only at h ⊢
    by_cases ht : a.tag = c.tag
    · rw [if_pos ht] at h ⊢
      cases hta : a.tag <;> rw [hta] at h <;> dsimp only at h ⊢
      · exact h
      · exact h
      · rcases hp : pairOf H a with _ | p
        · simp [hp] at h
        rcases hq : pairOf H c with _ | q
        · simp [hp, hq] at h
        simp only [hp, hq] at h ⊢
        rcases hb : structEq F H f p.1 q.1 with _ | b
        · simp [hb] at h
        · rw [ih hb]
          rw [hb] at h
          cases b
          · exact h
          · exact ih h
      · exact h
      · rcases hp : elemsOf H a with _ | p
        · simp [hp] at h
        rcases hq : elemsOf H c with _ | q
        · simp [hp, hq] at h
        simp only [hp, hq] at h ⊢
        by_cases hl : p.length = q.length
        · rw [if_pos hl] at h ⊢
          exact arrLoop_mono (fun _ _ _ => ih) _ _ h
        · rw [if_neg hl] at h ⊢
          exact h
      · exact h
    · rw [if_neg ht] at h ⊢
      exact h

theorem structEq_mono' {r : Bool} {f g : Nat} {a c : Val} (hg : f ≤ g)
    (h : structEq F H f a c = some r) : structEq F H g a c = some r := by
  induction hg with
  | refl => exact h
  | step _ ih => exact structEq_mono ih

/-- The tag of a tree. -/
def T.tag : T → Tag
  | .sym _ => .sym
  | .num t _ => .num t
  | .cons _ _ => .cons
  | .bytes _ => .array
  | .arr _ => .lispArray
  | .obj n => .other n

theorem rep_tag {v : Val} {t : T} (h : Rep H v t) : v.tag = t.tag := by
  cases h <;> rfl

theorem same_tag {t s : T} (h : t.tag ≠ s.tag) : same F t s = false := by
  cases t <;> cases s <;> simp only [T.tag, ne_eq, not_true, reduceCtorEq, not_false_eq_true,
    Tag.num.injEq] at h <;> simp [same, h]

theorem reps_length {l : List Val} {ts : List T} (h : Reps H l ts) : l.length = ts.length := by
  induction l generalizing ts with
  | nil => cases h; rfl
  | cons v l ih => cases h with | cons _ h => simp [ih h]

theorem sames_length : ∀ {ts ss : List T}, ts.length ≠ ss.length → sames F ts ss = false := by
  intro ts
  induction ts with
  | nil => intro ss h; cases ss <;> simp_all [sames]
  | cons t ts ih =>
    intro ss h
    cases ss with
    | nil => rfl
    | cons s ss => simp only [sames]; rw [ih (by simpa using h), Bool.and_false]

mutual
theorem structEq_spec {v : Val} : ∀ {t : T}, Rep H v t → ∀ {w : Val} {s : T}, Rep H w s →
    ∃ n, structEq F H n v w = some (same F t s)
  | t, hv, w, s, hw => by
    by_cases ht : t.tag = s.tag
    · have ht' : v.tag = w.tag := by rw [rep_tag hv, rep_tag hw, ht]
      cases hv with
      | sym =>
        cases hw <;> simp [T.tag] at ht
        exact ⟨1, by simp [structEq, Val.tag, same]⟩
      | imm =>
        cases hw <;> simp [T.tag] at ht <;> subst ht
        · exact ⟨1, by simp [structEq, Val.tag, same, numOf]⟩
        · rename_i e; exact ⟨1, by simp [structEq, Val.tag, same, numOf, e]⟩
      | boxed e' =>
        cases hw <;> simp [T.tag] at ht <;> subst ht
        · exact ⟨1, by simp [structEq, Val.tag, same, numOf, e']⟩
        · rename_i e; exact ⟨1, by simp [structEq, Val.tag, same, numOf, e, e']⟩
      | @cons k ix a d ta td e ha hd =>
        cases hw <;> simp [T.tag] at ht
        rename_i k' ix' a' d' ta' td' e' ha' hd'
        obtain ⟨n, h1⟩ := structEq_spec ha ha'
        obtain ⟨m, h2⟩ := structEq_spec hd hd'
        refine ⟨max n m + 1, ?_⟩
        simp only [structEq, Val.tag, if_true, pairOf, e, e',
          structEq_mono' (Nat.le_max_left n m) h1, structEq_mono' (Nat.le_max_right n m) h2, same]
        cases same F ta ta' <;> simp
      | bytes e =>
        cases hw <;> simp [T.tag] at ht
        rename_i l k ix m e'
        refine ⟨1, ?_⟩
        simp only [structEq, Val.tag, if_true, bytesOf, e, e', same]
        congr 1
        by_cases hlm : l = m
        · subst hlm; simp
        · simp [hlm]
      | @arr k ix l ts e hl =>
        cases hw <;> simp [T.tag] at ht
        rename_i k' ix' l' ts' e' hl'
        by_cases hlen : l.length = l'.length
        · obtain ⟨n, h⟩ := arrLoop_spec hl hl' hlen
          refine ⟨n + 1, ?_⟩
          simp only [structEq, Val.tag, if_true, elemsOf, e, e', if_pos hlen, h, same]
        · refine ⟨1, ?_⟩
          simp only [structEq, Val.tag, if_true, elemsOf, e, e', if_neg hlen, same]
          rw [sames_length]
          rwa [← reps_length hl, ← reps_length hl']
      | obj =>
        cases hw <;> simp [T.tag] at ht
        subst ht
        exact ⟨1, by simp [structEq, Val.tag, same]⟩
    · refine ⟨1, ?_⟩
      rw [same_tag ht, structEq.eq_def]
      exact if_neg (by rwa [rep_tag hv, rep_tag hw])
theorem arrLoop_spec {l : List Val} : ∀ {ts : List T}, Reps H l ts → ∀ {m : List Val} {ss : List T},
    Reps H m ss → l.length = m.length →
    ∃ n, arrLoop (structEq F H n) l m = some (sames F ts ss)
  | ts, hl, m, ss, hm, hlen => by
    cases hl with
    | nil =>
      cases hm with
      | nil => exact ⟨0, rfl⟩
      | cons _ _ => simp at hlen
    | @cons v t vs ts hv hvs =>
      cases hm with
      | nil => simp at hlen
      | @cons w s ws ss hw hws =>
        obtain ⟨n, h1⟩ := structEq_spec hv hw
        obtain ⟨k, h2⟩ := arrLoop_spec hvs hws (by simpa using hlen)
        refine ⟨max n k, ?_⟩
        simp only [arrLoop, structEq_mono' (Nat.le_max_left n k) h1, sames]
        cases same F t s with
        | true =>
          simp only [Bool.true_and]
          exact arrLoop_mono (fun _ _ _ h => structEq_mono' (Nat.le_max_right n k) h) _ _ h2
        | false => simp
end

/-- **C29**: `struct_eq` terminates on finite values and decides equality of the trees they stand
for. -/
theorem C29_decides {v w : Val} {t s : T} (hv : Rep H v t) (hw : Rep H w s) :
    ∃ n, ∀ f ≥ n, structEq F H f v w = some (same F t s) := by
  obtain ⟨n, h⟩ := structEq_spec (F := F) hv hw
  exact ⟨n, fun f hf => structEq_mono' hf h⟩

/-- **C29**: `(eq a b₁ … bₙ)` is true exactly when every `bᵢ` equals `a`. -/
theorem C29_eq {v : Val} {t : T} {ws : List Val} {ss : List T} (hv : Rep H v t) (hw : Reps H ws ss) :
    ∃ n, ∀ f ≥ n, fEq F H f (v :: ws) = some (ss.all (same F t)) := by
  induction ws generalizing ss with
  | nil => cases hw; exact ⟨0, fun f _ => rfl⟩
  | cons w ws ih =>
    cases hw with
    | @cons _ s _ ss hw hws =>
      obtain ⟨n, h1⟩ := C29_decides (F := F) hv hw
      obtain ⟨m, h2⟩ := ih hws
      refine ⟨max n m, fun f hf => ?_⟩
      have h2' := h2 f (by omega)
      simp only [fEq] at h2'
      simp only [fEq, eqLoop, h1 f (by omega), List.all_cons]
      cases same F t s
      · simp
      · simp [h2']

/-! ### Equality of trees is an equivalence -/

/-- C's `==` on floating point numbers is symmetric and transitive. -/
structure Flt.Lawful (F : Flt) : Prop where
  symm32 : ∀ x y, F.eq32 x y = true → F.eq32 y x = true
  symm64 : ∀ x y, F.eq64 x y = true → F.eq64 y x = true
  trans32 : ∀ x y z, F.eq32 x y = true → F.eq32 y z = true → F.eq32 x z = true
  trans64 : ∀ x y z, F.eq64 x y = true → F.eq64 y z = true → F.eq64 x z = true

theorem numEq_symm (hF : F.Lawful) {t : NTy} {x y : Int} (h : numEq F t x y = true) :
    numEq F t y x = true := by
  cases t <;> simp only [numEq] at h ⊢ <;>
    first | exact hF.symm32 _ _ h | exact hF.symm64 _ _ h | simpa using (beq_iff_eq.1 h).symm

theorem numEq_trans (hF : F.Lawful) {t : NTy} {x y z : Int} (h : numEq F t x y = true)
    (h' : numEq F t y z = true) : numEq F t x z = true := by
  cases t <;> simp only [numEq] at h h' ⊢ <;>
    first
      | exact hF.trans32 _ _ _ h h'
      | exact hF.trans64 _ _ _ h h'
      | simpa using (beq_iff_eq.1 h).trans (beq_iff_eq.1 h')

mutual
theorem same_symm (hF : F.Lawful) : ∀ {t s : T}, same F t s = true → same F s t = true
  | .sym x, s, h => by cases s <;> simp_all [same]
  | .num t x, s, h => by
    cases s <;> simp [same] at h ⊢
    obtain ⟨rfl, h⟩ := h
    exact ⟨rfl, numEq_symm hF h⟩
  | .cons a d, s, h => by
    cases s <;> simp [same] at h ⊢
    exact ⟨same_symm hF h.1, same_symm hF h.2⟩
  | .bytes l, s, h => by cases s <;> simp_all [same]
  | .arr l, s, h => by
    cases s <;> simp [same] at h ⊢
    exact sames_symm hF h
  | .obj n, s, h => by cases s <;> simp [same] at h
theorem sames_symm (hF : F.Lawful) : ∀ {ts ss : List T}, sames F ts ss = true → sames F ss ts = true
  | [], ss, h => by cases ss <;> simp_all [sames]
  | t :: ts, ss, h => by
    cases ss <;> simp [sames] at h ⊢
    exact ⟨same_symm hF h.1, sames_symm hF h.2⟩
end

mutual
theorem same_trans (hF : F.Lawful) : ∀ {t s r : T}, same F t s = true → same F s r = true →
    same F t r = true
  | .sym x, s, r, h, h' => by cases s <;> cases r <;> simp_all [same]
  | .num t x, s, r, h, h' => by
    cases s <;> cases r <;> simp [same] at h h' ⊢
    obtain ⟨rfl, h⟩ := h
    obtain ⟨rfl, h'⟩ := h'
    exact ⟨rfl, numEq_trans hF h h'⟩
  | .cons a d, s, r, h, h' => by
    cases s <;> cases r <;> simp [same] at h h' ⊢
    exact ⟨same_trans hF h.1 h'.1, same_trans hF h.2 h'.2⟩
  | .bytes l, s, r, h, h' => by cases s <;> cases r <;> simp_all [same]
  | .arr l, s, r, h, h' => by
    cases s <;> cases r <;> simp [same] at h h' ⊢
    exact sames_trans hF h h'
  | .obj n, s, r, h, h' => by cases s <;> simp [same] at h
theorem sames_trans (hF : F.Lawful) : ∀ {ts ss rs : List T}, sames F ts ss = true →
    sames F ss rs = true → sames F ts rs = true
  | [], ss, rs, h, h' => by cases ss <;> cases rs <;> simp_all [sames]
  | t :: ts, ss, rs, h, h' => by
    cases ss <;> cases rs <;> simp [sames] at h h' ⊢
    exact ⟨same_trans hF h.1 h'.1, sames_trans hF h.2 h'.2⟩
end

mutual
theorem same_refl : ∀ {t : T}, Plain (fun t z => numEq F t z z = true) t → same F t t = true
  | .sym x, _ => by simp [same]
  | .num t x, h => by
    simp only [same, decide_true, Bool.true_and]
    cases t <;> first | (simp [numEq]; done) | exact h (by simp)
  | .cons a d, h => by simp [same, same_refl h.1, same_refl h.2]
  | .bytes l, _ => by simp [same]
  | .arr l, h => by simp only [same]; exact sames_refl h
  | .obj n, h => h.elim
theorem sames_refl : ∀ {ts : List T}, Plains (fun t z => numEq F t z z = true) ts →
    sames F ts ts = true
  | [], _ => rfl
  | t :: ts, h => by simp [sames, same_refl h.1, sames_refl h.2]
end

mutual
theorem same_eq : ∀ {t s : T}, Plain (fun _ _ => False) t → same F t s = true → t = s
  | .sym x, s, _, h => by cases s <;> simp_all [same]
  | .num t x, s, hp, h => by
    cases s <;> simp [same] at h
    obtain ⟨rfl, h⟩ := h
    cases t <;> first
      | (simp only [numEq, beq_iff_eq] at h; rw [h]; done)
      | exact (hp (.inl rfl)).elim
      | exact (hp (.inr rfl)).elim
  | .cons a d, s, hp, h => by
    cases s <;> simp [same] at h
    rw [same_eq hp.1 h.1, same_eq hp.2 h.2]
  | .bytes l, s, _, h => by cases s <;> simp_all [same]
  | .arr l, s, hp, h => by
    cases s <;> simp [same] at h
    rw [sames_eq hp h]
  | .obj n, s, hp, h => hp.elim
theorem sames_eq : ∀ {ts ss : List T}, Plains (fun _ _ => False) ts → sames F ts ss = true → ts = ss
  | [], ss, _, h => by cases ss <;> simp_all [sames]
  | t :: ts, ss, hp, h => by
    cases ss <;> simp [sames] at h
    rw [same_eq hp.1 h.1, sames_eq hp.2 h.2]
end

/-- **C29** (partial): equality of finite values is symmetric and transitive, and
reflexive on values without opaque objects and without floating point numbers that differ
from themselves (NaN). -/
theorem C29_equivalence_partial (hF : F.Lawful) {u v w : Val} {r t s : T} (hu : Rep H u r)
    (hv : Rep H v t) (hw : Rep H w s) :
    ∃ n, ∀ f ≥ n,
      (Plain (fun t z => numEq F t z z = true) r → structEq F H f u u = some true) ∧
      (structEq F H f u v = some true → structEq F H f v u = some true) ∧
      (structEq F H f u v = some true → structEq F H f v w = some true →
        structEq F H f u w = some true) := by
  obtain ⟨n1, h1⟩ := C29_decides (F := F) hu hu
  obtain ⟨n2, h2⟩ := C29_decides (F := F) hu hv
  obtain ⟨n3, h3⟩ := C29_decides (F := F) hv hu
  obtain ⟨n4, h4⟩ := C29_decides (F := F) hv hw
  obtain ⟨n5, h5⟩ := C29_decides (F := F) hu hw
  refine ⟨n1 + n2 + n3 + n4 + n5, fun f hf => ?_⟩
  rw [h1 f (by omega), h2 f (by omega), h3 f (by omega), h4 f (by omega), h5 f (by omega)]
  simp only [Option.some.injEq]
  exact ⟨same_refl, same_symm hF, same_trans hF⟩

/-- **C29**: values without floating point numbers and opaque objects are equal exactly when they
are the same tree; so they have the same `car`, `cdr` and elements. -/
theorem C29_identical {v w : Val} {t s : T} (hv : Rep H v t) (hw : Rep H w s)
    (hp : Plain (fun _ _ => False) t) :
    ∃ n, ∀ f ≥ n, structEq F H f v w = some true ↔ t = s := by
  obtain ⟨n, h⟩ := C29_decides (F := F) hv hw
  refine ⟨n, fun f hf => ?_⟩
  rw [h f hf]
  simp only [Option.some.injEq]
  refine ⟨same_eq hp, ?_⟩
  rintro rfl
  apply same_refl
  have weaken : ∀ t : T, Plain (fun _ _ => False) t → Plain (fun t z => numEq F t z z = true) t := by
    intro t
    refine T.rec (motive_1 := fun t => Plain (fun _ _ => False) t →
        Plain (fun t z => numEq F t z z = true) t)
      (motive_2 := fun ts => Plains (fun _ _ => False) ts →
        Plains (fun t z => numEq F t z z = true) ts) ?_ ?_ ?_ ?_ ?_ ?_ ?_ ?_ t
    · intro _ _; trivial
    · intro t z h h'; exact (h h').elim
    · intro a d ha hd h; exact ⟨ha h.1, hd h.2⟩
    · intro _ _; trivial
    · intro l hl h; exact hl h
    · intro n h; exact h
    · intro _; trivial
    · intro t ts ht hts h; exact ⟨ht h.1, hts h.2⟩
  exact weaken _ hp

/-- **C29 is violated** (reflexivity): a channel or a custom object is not equal to itself, nor is a
list that contains one; and a NaN is not equal to itself. -/
theorem C29_opaque_violated (n ix : Nat) (k : Bool) : ∀ f, structEq F H f (.ptr (.other n) k ix)
    (.ptr (.other n) k ix) ≠ some true := by
  intro f
  cases f with
  | zero => simp [structEq]
  | succ f => simp [structEq, Val.tag]

theorem C29_nan_violated (z : Int) (hz : F.eq32 z z = false) (f : Nat) :
    structEq F H (f + 1) (.imm .float z) (.imm .float z) = some false := by
  simp [structEq, Val.tag, numOf, numEq, hz]

/-! ## C59: association lists -/

/-- **C59**: `(assoc alist key)` is the value of the first pair whose key equals `key`, and
nil when there is none (alist a proper list of pairs). -/
theorem C59_assoc {alist key : Val} {tk : T} {l : List ((Val × T) × (Val × T))}
    (ha : Alist H (.sym symNIL) alist l) (hk : Rep H key tk) :
    ∃ n, ∀ f ≥ n, ∀ m, l.length < m → fAssoc F H f m alist key =
      match l.find? (fun p => same F p.1.2 tk) with
      | some p => some (if p.2.1 = .sym symNoMatch then .sym symNIL else p.2.1)
      | none => some (.sym symNIL) := by
  have key : ∃ n, ∀ f ≥ n, ∀ m, l.length < m → assocLookup F H f key m alist =
      match l.find? (fun p => same F p.1.2 tk) with
      | some p => some p.2.1
      | none => some (.sym symNoMatch) := by
    induction ha with
    | nil =>
      refine ⟨0, fun f _ m hm => ?_⟩
      cases m with
      | zero => simp at hm
      | succ m => simp [assocLookup, Val.tag]
    | @cons k k' ix ix' d x y tx ty l e1 e2 hx hy _ ih =>
      obtain ⟨n1, h1⟩ := C29_decides (F := F) hx hk
      obtain ⟨n2, h2⟩ := ih
      refine ⟨n1 + n2, fun f hf m hm => ?_⟩
      cases m with
      | zero => simp at hm
      | succ m =>
        simp only [assocLookup, Val.tag, if_true, pairOf, e1, e2, h1 f (by omega), List.find?_cons]
        cases same F tx tk with
        | true => rfl
        | false => exact h2 f (by omega) m (by simpa using hm)
  obtain ⟨n, h⟩ := key
  refine ⟨n, fun f hf m hm => ?_⟩
  cases ha with
  | nil => simp [fAssoc, fLookup, Val.tag]
  | cons e1 e2 hx hy hd =>
    simp only [fAssoc, fLookup, Val.tag, if_true]
    rw [h f hf m hm]
    split <;> simp_all

/-- **C59**: `(cossa alist value)` is the key of the first pair whose value equals `value`. -/
theorem C59_cossa {alist key : Val} {tk : T} {l : List ((Val × T) × (Val × T))}
    (ha : Alist H (.sym symNIL) alist l) (hk : Rep H key tk) :
    ∃ n, ∀ f ≥ n, ∀ m, l.length < m → fCossa F H f m alist key =
      match l.find? (fun p => same F p.2.2 tk) with
      | some p => some (if p.1.1 = .sym symNoMatch then .sym symNIL else p.1.1)
      | none => some (.sym symNIL) := by
  have key : ∃ n, ∀ f ≥ n, ∀ m, l.length < m → cossaLookup F H f key m alist =
      match l.find? (fun p => same F p.2.2 tk) with
      | some p => some p.1.1
      | none => some (.sym symNoMatch) := by
    induction ha with
    | nil =>
      refine ⟨0, fun f _ m hm => ?_⟩
      cases m with
      | zero => simp at hm
      | succ m => simp [cossaLookup, Val.tag]
    | @cons k k' ix ix' d x y tx ty l e1 e2 hx hy _ ih =>
      obtain ⟨n1, h1⟩ := C29_decides (F := F) hy hk
      obtain ⟨n2, h2⟩ := ih
      refine ⟨n1 + n2, fun f hf m hm => ?_⟩
      cases m with
      | zero => simp at hm
      | succ m =>
        simp only [cossaLookup, Val.tag, if_true, pairOf, e1, e2, h1 f (by omega), List.find?_cons]
        cases same F ty tk with
        | true => rfl
        | false => exact h2 f (by omega) m (by simpa using hm)
  obtain ⟨n, h⟩ := key
  refine ⟨n, fun f hf m hm => ?_⟩
  cases ha with
  | nil => simp [fCossa, fLookup, Val.tag]
  | cons e1 e2 hx hy hd =>
    simp only [fCossa, fLookup, Val.tag, if_true]
    rw [h f hf m hm]
    split <;> simp_all

/-- **C59**: an element that is not a pair makes `fAssoc` fail, unless a pair before it matches. -/
theorem C59_assoc_not_a_pair {alist key : Val} {tk : T} {l : List ((Val × T) × (Val × T))} {k : Bool} {ix : Nat} {c d : Val}
    (ha : Alist H (.ptr .cons k ix) alist l) (hk : Rep H key tk) (hp : H k ix = .pair c d) (hc : c.tag ≠ .cons)
    (hnone : l.find? (fun p => same F p.1.2 tk) = none) :
    ∃ n, ∀ f ≥ n, ∀ m, l.length < m → fAssoc F H f m alist key = some (.sym symEERROR) := by
  have key : ∃ n, ∀ f ≥ n, ∀ m, l.length < m → assocLookup F H f key m alist = some (.sym symEERROR) := by
    induction ha with
    | nil =>
      refine ⟨0, fun f _ m hm => ?_⟩
      cases m with
      | zero => simp at hm
      | succ m =>
        have e1 : pairOf H (.ptr .cons k ix) = some (c, d) := by simp [pairOf, hp]
        rw [assocLookup.eq_def]
        simp only [e1, if_neg hc]
        exact if_pos rfl
    | @cons k k' ix ix' d x y tx ty l e1 e2 hx hy _ ih =>
      obtain ⟨n1, h1⟩ := C29_decides (F := F) hx hk
      simp only [List.find?_cons] at hnone
      cases hs : same F tx tk with
      | true => simp [hs] at hnone
      | false =>
        rw [hs] at hnone
        obtain ⟨n2, h2⟩ := ih hnone
        refine ⟨n1 + n2, fun f hf m hm => ?_⟩
        cases m with
        | zero => simp at hm
        | succ m =>
          simp only [assocLookup, Val.tag, if_true, pairOf, e1, e2, h1 f (by omega), hs]
          exact h2 f (by omega) m (by simpa using hm)
  obtain ⟨n, h⟩ := key
  refine ⟨n, fun f hf m hm => ?_⟩
  have ht : alist.tag = .cons := by cases ha <;> rfl
  simp only [fAssoc, fLookup, ht, if_true]
  rw [h f hf m hm]
  rfl

/-- **C59**: an element that is not a pair makes `fCossa` fail, unless a pair before it matches. -/
theorem C59_cossa_not_a_pair {alist key : Val} {tk : T} {l : List ((Val × T) × (Val × T))} {k : Bool} {ix : Nat} {c d : Val}
    (ha : Alist H (.ptr .cons k ix) alist l) (hk : Rep H key tk) (hp : H k ix = .pair c d) (hc : c.tag ≠ .cons)
    (hnone : l.find? (fun p => same F p.2.2 tk) = none) :
    ∃ n, ∀ f ≥ n, ∀ m, l.length < m → fCossa F H f m alist key = some (.sym symEERROR) := by
  have key : ∃ n, ∀ f ≥ n, ∀ m, l.length < m → cossaLookup F H f key m alist = some (.sym symEERROR) := by
    induction ha with
    | nil =>
      refine ⟨0, fun f _ m hm => ?_⟩
      cases m with
      | zero => simp at hm
      | succ m =>
        have e1 : pairOf H (.ptr .cons k ix) = some (c, d) := by simp [pairOf, hp]
        rw [cossaLookup.eq_def]
        simp only [e1, if_neg hc]
        exact if_pos rfl
    | @cons k k' ix ix' d x y tx ty l e1 e2 hx hy _ ih =>
      obtain ⟨n1, h1⟩ := C29_decides (F := F) hy hk
      simp only [List.find?_cons] at hnone
      cases hs : same F ty tk with
      | true => simp [hs] at hnone
      | false =>
        rw [hs] at hnone
        obtain ⟨n2, h2⟩ := ih hnone
        refine ⟨n1 + n2, fun f hf m hm => ?_⟩
        cases m with
        | zero => simp at hm
        | succ m =>
          simp only [cossaLookup, Val.tag, if_true, pairOf, e1, e2, h1 f (by omega), hs]
          exact h2 f (by omega) m (by simpa using hm)
  obtain ⟨n, h⟩ := key
  refine ⟨n, fun f hf m hm => ?_⟩
  have ht : alist.tag = .cons := by cases ha <;> rfl
  simp only [fCossa, fLookup, ht, if_true]
  rw [h f hf m hm]
  rfl

/-! ### Non-vacuity -/

/-- A heap with `((a . [1 2]) (b . 2i32))` in RAM and a copy of its first value in the constant
heap. -/
def exHeap : Heap := fun k ix =>
  match k, ix with
  | false, 0 => .pair (.ptr .cons false 1) (.ptr .cons false 2)
  | false, 1 => .pair (.sym 0x40000) (.ptr .array false 4)
  | false, 2 => .pair (.ptr .cons false 3) (.sym 0)
  | false, 3 => .pair (.sym 0x40001) (.ptr (.num .i32) false 5)
  | false, 4 => .bytes [1, 2]
  | false, 5 => .num 2
  | true, 0 => .bytes [1, 2]
  | true, 1 => .arr [.ptr .array true 0, .imm .i 7]
  | _, _ => .other

example : Alist exHeap (.sym symNIL) (.ptr .cons false 0)
    [((.sym 0x40000, .sym 0x40000), (.ptr .array false 4, .bytes [1, 2])),
     ((.sym 0x40001, .sym 0x40001), (.ptr (.num .i32) false 5, .num .i32 2))] :=
  .cons rfl rfl .sym (.bytes rfl) (.cons rfl rfl .sym (.boxed rfl) .nil)
example : Rep exHeap (.ptr .lispArray true 1) (.arr [.bytes [1, 2], .num .i 7]) :=
  .arr rfl (.cons (.bytes rfl) (.cons .imm .nil))
example : Plain (fun _ _ => False) (.arr [.bytes [1, 2], .num .i 7]) := by simp [Plain, Plains]
/-- The integers as floating point numbers. -/
def exFlt : Flt := ⟨fun x y => x == y && x != 99, fun x y => x == y⟩
example : exFlt.Lawful := by
  constructor <;> simp [exFlt] <;> intros <;> subst_vars <;> simp_all
example : exFlt.eq32 99 99 = false := rfl
/-- `(5)` is not an association list. -/
example : Alist (fun _ _ => .pair (.imm .i 5) (.sym symNIL)) (.ptr .cons false 0) (.ptr .cons false 0) [] ∧
    (Val.imm .i 5).tag ≠ .cons := ⟨.nil, by decide⟩
example : fAssoc exFlt exHeap 5 5 (.ptr .cons false 0) (.sym 0x40001) =
  some (.ptr (.num .i32) false 5) := by decide
example : fCossa exFlt exHeap 5 5 (.ptr .cons false 0) (.ptr .array true 0) =
  some (.sym 0x40000) := by decide

end Verif.Eq
