import Verif.Eval.OwnProps
import Verif.Eval.Props

/-!
# The list that `map` makes: proof
-/

namespace Verif.Eval
variable {N : Nat → Prop} {P : Prims}

theorem ev_own (hP : Local P) {s s' : St} {env e v : V} (h : Ev P false s none (.exp env e) s' none (.ok v)) (ha : Apart N s) (he : Away N s.next e)
    (henv : Away N s.next env) : Apart N s' ∧ Away N s'.next v ∧ Kept N s s' := by
  obtain ⟨n, x, env', hn⟩ := sim h 0 .nil rfl rfl .junk [] _ ⟨.nil, rfl⟩
  have := fine_steps (sz := none) hP n (s0 := s) (N := N) (o := .next ⟨[], .nil, e, env, false, 0, .nil, s⟩)
    ⟨⟨ha, awayK_nil, away_sym _, he, henv, away_sym _⟩, kept_refl _⟩
  rw [show (Out.next ⟨[], .nil, e, env, false, 0, .nil, s⟩) = Out.next ⟨frame none .junk [], .nil, e, env, false, 0, .nil, s⟩ from rfl, hn] at this
  exact ⟨this.1.st, this.1.r, this.2⟩

theorem ev_own_k (hP : Local P) {s s' : St} {f : Frame} {u v : V} (h : Ev P false s none (.k f u) s' none (.ok v)) (ha : Apart N s) (hu : Away N s.next u)
    (hf : AwayK N s.next f.words) : Apart N s' ∧ Away N s'.next v ∧ Kept N s s' := by
  obtain ⟨n, x, env', hn⟩ := sim h 0 .nil rfl rfl .junk [] _ ⟨.nil, .nil, rfl⟩
  have h1 : Fine N s (runCont none P f.code ⟨f.words ++ frame none .junk [], u, .nil, .nil, false, 0, .nil, s⟩) :=
    fine_runCont (m := ⟨f.words ++ frame none .junk [], u, .nil, .nil, false, 0, .nil, s⟩)
      ⟨ha, (awayK_append _ _).2 ⟨hf, awayK_nil⟩, hu, away_sym _, away_sym _, away_sym _⟩ hP _
  have := fine_steps (sz := none) hP n h1
  rw [hn] at this
  exact ⟨this.1.st, this.1.r, this.2⟩

/-! ## Specification -/

/-- A function: a closure, or a built-in function. -/
def IsFn (s : St) (f : V) : Prop := (∃ c, f = .cons c ∧ s.car c = .closure) ∨ ∃ n, f = .sym n ∧ 0x10000 ≤ n ∧ n < runtimeStart

/-- The cells of the expression `(f (quote x))`. -/
structure CallCells (s : St) (f x : V) (c t q g : Nat) : Prop where
  fn : s.car c = f
  args : s.cdr c = .cons t
  arg : s.car t = .cons q
  nil : s.cdr t = .nil
  quote : s.car q = .quote
  body : s.cdr q = .cons g
  val : s.car g = x
  nil' : s.cdr g = .nil

/-- The value is a list in the cells `R`. -/
def Spine (s : St) : List Nat → V → Prop
  | [], v => v = .nil
  | a :: R, v => v = .cons a ∧ Spine s R (s.cdr a)

/-- All that can be reached from the values `rs`, the global variables and the captured continuations is the same in both stores. -/
def SameView (rs : List V) (s s' : St) : Prop :=
  (∀ a, Reaches s (fun v => v ∈ rs ∨ s.shared v) a → s'.car a = s.car a ∧ s'.cdr a = s.cdr a) ∧ s'.globals = s.globals ∧ s'.konts = s.konts

/-- `MapRun P env f acc s l vs s'`: the calls of the function `f` for the elements of the list `l`, one after the other, in the environment `env`, have the values
`vs`. Each element and the rest of the list are taken from the list as the calls before left it. Between the calls nothing changes that the program could see.
`acc` are the values of the calls before. Once a call has turned `f` into something that is not a function, nothing more is said about the calls. -/
inductive MapRun (P : Prims) (env f : V) : List V → St → V → List V → St → Prop
  | done {acc s l s'} : l.isCons = false → SameView (env :: f :: l :: acc) s s' → MapRun P env f acc s l [] s'
  | call {acc s a s1 c t q g s2 v vs s'} : SameView (env :: f :: .cons a :: acc) s s1 → CallCells s1 f (s.car a) c t q g →
      Ev P false s1 none (.exp env (.cons c)) s2 none (.ok v) → (IsFn s1 f → MapRun P env f (acc ++ [v]) s2 (s.cdr a) vs s') →
      MapRun P env f acc s (.cons a) (v :: vs) s'

/-! ## Calls -/

theorem quote_only {s s' : St} {env v x : V} {q g : Nat} (hq : s.car q = .quote) (hb : s.cdr q = .cons g) (hv : s.car g = x)
    (h : Ev P false s none (.exp env (.cons q)) s' none (.ok v)) : s' = s ∧ v = x := by
  have h0 : Ev P false s none (.exp env (.cons q)) s none (.ok x) := .quote ⟨q, rfl, hq⟩ (by simp only [St.gcadr, hb, hv])
  obtain ⟨e1, e2⟩ := C39_deterministic_partial h h0
  exact ⟨e1, e2⟩

/-- A call of a function is the evaluation of its arguments. -/
theorem call_only {s s' : St} {env v f x : V} {c t q g : Nat} (hc : CallCells s f x c t q g) (hf : IsFn s f)
    (h : Ev P false s none (.exp env (.cons c)) s' none (.ok v)) : Ev P false s none (.k (.start env (.cons t)) f) s' none (.ok v) := by
  have hn : ∀ n, n < 0x10000 → ¬ s.isForm (.cons c) n := by
    rintro n hn ⟨a, ha, hs⟩
    cases ha
    rw [hc.fn] at hs
    rcases hf with ⟨b, rfl, _⟩ | ⟨m, rfl, hm, _⟩
    · cases hs
    · cases hs; omega
  have hv : Ev P false s none (.exp env f) s none (.ok f) := by
    rcases hf with ⟨b, rfl, hb⟩ | ⟨m, rfl, _, hm⟩
    · exact .fnval ⟨b, rfl, hb⟩ (.inr (.inr rfl))
    · exact .name hm
  cases h
  all_goals try exact absurd ‹s.isForm _ _› (hn _ (by decide))
  · rename_i h1 h2; cases h2
  · rename_i n h1 h2
    exact absurd h2 (hn _ (by omega))
  · rename_i h1 h2
    rw [hc.args, hc.fn] at h2
    cases h2
    rename_i h3 h4
    obtain ⟨e1, e2⟩ := C39_deterministic_partial h3 hv
    rw [e1, e2] at h4
    exact h4

/-- A call of a function leaves alone the cells of the call. -/
theorem call_own (hP : Local P) {s s' : St} {env v f x : V} {c t q g : Nat} (hc : CallCells s f x c t q g) (hf : IsFn s f)
    (h : Ev P false s none (.exp env (.cons c)) s' none (.ok v)) (ha : Apart N s) (hfn : Away N s.next f) (hx : Away N s.next x) (henv : Away N s.next env)
    (hq : N q) (hg : N g) : Apart N s' ∧ Away N s'.next v ∧ Kept N s s' := by
  have h1 := call_only hc hf h
  rcases hf with ⟨b, rfl, hb⟩ | ⟨n, rfl, _, hn⟩
  · have hcl := ha.cdr hfn
    have hparams := ha.hd hcl
    have hbody := ha.hd (ha.tl hcl)
    have hcenv := ha.hd (ha.tl (ha.tl hcl))
    have ga : s.gcar (.cons t) = some (.cons q) := by simp only [St.gcar, hc.arg]
    have gd : s.gcdr (.cons t) = some .nil := by simp only [St.gcdr, hc.nil]
    cases h1
    · rename_i h2 h5 h6 h3 h4 h7
      rw [ga] at h5
      rw [gd] at h6
      cases h5
      cases h6
      cases h7
      rename_i h8 h9
      obtain ⟨rfl, rfl⟩ := quote_only hc.quote hc.body hc.val h8
      refine ev_own_k hP h9 ha hx ?_
      simp only [Frame.words, awayK_v]
      exact ⟨away_sym _, hparams, hcenv, hbody, henv, awayK_nil⟩
    · rename_i h2 h5 h6 h3 h4 h7 h8
      rw [ga] at h5
      rw [gd] at h6
      cases h5
      cases h6
      obtain ⟨a1, a2, a3⟩ := ha.allocBinding (away_sym 0x30015) (away_sym 0) hcenv
      rw [show allocBinding s (.sym 0x30015) (.sym 0) _ = _ from h7] at a1 a2 a3
      dsimp only at a1 a2 a3
      cases h8
      rename_i h8 h9
      obtain ⟨rfl, rfl⟩ := quote_only ((a3.1 q hq).1.trans hc.quote) ((a3.1 q hq).2.trans hc.body) ((a3.1 g hg).1.trans hc.val) h8
      have := ev_own_k hP h9 a1 (hx.up a3) (by
        simp only [Frame.words, awayK_v]
        exact ⟨a1.hd a2, away_sym _, a2, hbody.up a3, henv.up a3, awayK_nil⟩)
      exact ⟨this.1, this.2.1, a3.trans this.2.2⟩
    · rename_i h2 _ _ _
      rw [hb] at h2; cases h2
  · cases h1
    rename_i h2
    cases h2
    all_goals try (rename_i h3 _ _; cases h3; done)
    all_goals try (rename_i h3 _ _ _; cases h3; done)
    all_goals try (rename_i h3 _; cases h3; done)
    rename_i h3
    rw [hc.arg, hc.nil] at h3
    cases h3
    rename_i h8 h9
    obtain ⟨rfl, rfl⟩ := quote_only hc.quote hc.body hc.val h8
    refine ev_own_k hP h9 ha hx ?_
    simp only [Frame.words, awayK_v]
    exact ⟨away_u _, away_sym _, henv, by simp only [List.map, awayK_v]; exact ⟨away_sym _, awayK_nil⟩⟩

/-! ## The loop -/

theorem Spine.congr {s s' : St} : ∀ {R : List Nat} {v : V}, (∀ a ∈ R, s'.cdr a = s.cdr a) → Spine s R v → Spine s' R v
  | [], _, _, h => h
  | a :: R, _, hc, ⟨h1, h2⟩ => ⟨h1, by rw [hc a List.mem_cons_self]; exact Spine.congr (fun b hb => hc b (List.mem_cons_of_mem _ hb)) h2⟩

theorem Spine.snoc {s s' : St} {z n : Nat} (hz : s'.cdr z = .cons n) (hn : s'.cdr n = .nil) : ∀ {R : List Nat} {v : V}, (∀ a ∈ R, s'.cdr a = s.cdr a) →
    Spine s (R ++ [z]) v → Spine s' ((R ++ [z]) ++ [n]) v
  | [], _, _, h => ⟨h.1, hz, hn⟩
  | a :: R, _, hc, h => ⟨h.1, by rw [hc a List.mem_cons_self]; exact Spine.snoc hz hn (fun b hb => hc b (List.mem_cons_of_mem _ hb)) h.2⟩

theorem Apart.grow {s s' : St} (h : Apart N s) (hn : s'.next = s.next + 1) (hg : s'.globals = s.globals) (hk : s'.konts = s.konts)
    (hc : ∀ a, a < s.next → ¬ N a → Away N s.next (s'.car a) ∧ Away N s.next (s'.cdr a)) : Apart (fun a => N a ∨ a = s.next) s' := by
  have up : ∀ v, Away N s.next v → Away (fun a => N a ∨ a = s.next) s'.next v := by
    intro v hv a e
    have := hv a e
    exact ⟨fun h1 => h1.elim this.1 (fun h2 => by omega), by omega⟩
  refine ⟨fun a ha hna => ?_, fun n => hg ▸ up _ (h.globals n), fun k => hk ▸ fun v hv => up v (h.konts k v hv), fun a ha => ?_⟩
  · have h1 : a < s.next := by
      have : a ≠ s.next := fun e => hna (.inr e)
      omega
    have h2 := hc a h1 (fun e => hna (.inl e))
    exact ⟨up _ h2.1, up _ h2.2⟩
  · rcases ha with ha | rfl
    · have := h.old a ha; omega
    · omega

theorem Away.grow {k : Nat} {v : V} (h : Away N k v) : Away (fun a => N a ∨ a = k) (k + 1) v := by
  intro a e
  have := h a e
  exact ⟨fun h1 => h1.elim this.1 (fun h2 => by omega), by omega⟩

/-- The store in which the next call is made. -/
def mapStep (s : St) (z g : Nat) (u x : V) : St := (((((s.setCar (.cons z) u).setCar (.cons g) x).cons .nil .nil).1).setCdr (.cons z) (.cons s.next))

theorem mapStep_car (s : St) (z g : Nat) (u x : V) (b : Nat) :
    (mapStep s z g u x).car b = if b = s.next then .nil else if b = g then x else if b = z then u else s.car b := rfl

theorem mapStep_cdr (s : St) (z g : Nat) (u x : V) (b : Nat) :
    (mapStep s z g u x).cdr b = if b = z then .cons s.next else if b = s.next then .nil else s.cdr b := rfl

/-- What is known about the result list. -/
structure RInv (N : Nat → Prop) (s : St) (R0 : List Nat) (z : Nat) (vs : List V) (res : V) : Prop where
  hz : N z
  hR : ∀ a ∈ R0, N a
  ne : z ∉ R0
  spine : Spine s (R0 ++ [z]) res
  vals : R0.map s.car = vs

theorem RInv.kept {s s' : St} {R0 : List Nat} {z : Nat} {vs : List V} {res : V} (h : RInv N s R0 z vs res) (hk : Kept N s s') : RInv N s' R0 z vs res := by
  refine ⟨h.hz, h.hR, h.ne, h.spine.congr fun a ha => ?_, ?_⟩
  · rcases List.mem_append.1 ha with ha | ha
    · exact (hk.1 a (h.hR a ha)).2
    · exact (hk.1 a (List.mem_singleton.1 ha ▸ h.hz)).2
  · rw [← h.vals]
    exact List.map_congr_left fun a ha => (hk.1 a (h.hR a ha)).1

theorem RInv.last {s : St} {R0 : List Nat} {z : Nat} {vs : List V} {res : V} (h : RInv N s R0 z vs res) (u : V) :
    Spine (s.setCar (.cons z) u) (R0 ++ [z]) res ∧ (R0 ++ [z]).map (s.setCar (.cons z) u).car = vs ++ [u] := by
  refine ⟨Spine.congr (s := s) (fun a _ => rfl) h.spine, ?_⟩
  have h1 : R0.map (s.setCar (.cons z) u).car = R0.map s.car := List.map_congr_left fun a ha => by
    simp only [St.setCar]; rw [if_neg (fun e : a = z => h.ne (e ▸ ha))]
  rw [List.map_append, h1, h.vals]
  simp [St.setCar]

theorem RInv.step {s : St} {R0 : List Nat} {z : Nat} {vs : List V} {res : V} (ha : Apart N s) (h : RInv N s R0 z vs res) {g : Nat} {u x : V} (hg : g ∉ R0 ++ [z])  :
    RInv (fun a => N a ∨ a = s.next) (mapStep s z g u x) (R0 ++ [z]) s.next (vs ++ [u]) res := by
  have old : ∀ a ∈ R0 ++ [z], a < s.next := fun a h1 => by
    rcases List.mem_append.1 h1 with h1 | h1
    · exact ha.old a (h.hR a h1)
    · exact ha.old a (List.mem_singleton.1 h1 ▸ h.hz)
  have hzn : z ≠ s.next := fun e => by have := ha.old z h.hz; omega
  refine ⟨.inr rfl, fun a h1 => .inl ?_, fun h1 => by have := old _ h1; omega, ?_, ?_⟩
  · rcases List.mem_append.1 h1 with h1 | h1
    · exact h.hR a h1
    · exact List.mem_singleton.1 h1 ▸ h.hz
  · refine Spine.snoc ?_ ?_ (fun a h1 => ?_) h.spine
    · rw [mapStep_cdr, if_pos rfl]
    · rw [mapStep_cdr, if_neg (fun e => hzn e.symm), if_pos rfl]
    · have := old a (List.mem_append_left _ h1)
      rw [mapStep_cdr, if_neg (fun e : a = z => h.ne (e ▸ h1)), if_neg (by omega)]
  · rw [← (h.last u).2]
    refine List.map_congr_left fun a h1 => ?_
    have := old a h1
    rw [mapStep_car, if_neg (by omega), if_neg (fun e : a = g => hg (e ▸ h1))]
    rfl

theorem Apart.mapStep {s : St} (h : Apart N s) {z g : Nat} {u x : V} (hz : N z) (hx : Away N s.next x) :
    Apart (fun a => N a ∨ a = s.next) (Verif.Eval.mapStep s z g u x) := by
  refine h.grow rfl rfl rfl fun a ha hn => ?_
  have := h.cells a ha hn
  constructor
  · rw [mapStep_car, if_neg (by omega)]
    split
    · exact hx
    · rw [if_neg (fun e : a = z => hn (e ▸ hz))]; exact this.1
  · rw [mapStep_cdr, if_neg (fun e : a = z => hn (e ▸ hz)), if_neg (by omega)]; exact this.2

theorem sameView_of {s s' : St} (h : Apart N s) {rs : List V} (hr : ∀ v ∈ rs, Away N s.next v)
    (hc : ∀ a, a < s.next → ¬ N a → s'.car a = s.car a ∧ s'.cdr a = s.cdr a) (hg : s'.globals = s.globals) (hk : s'.konts = s.konts) : SameView rs s s' :=
  ⟨fun a ha => by
    obtain ⟨h1, h2⟩ := reaches_away h (fun v hv => hv.elim (hr v) (shared_away h)) ha
    exact hc a h2 h1, hg, hk⟩

theorem map_loop (hP : Local P) {s s' : St} {sc sc' : Scope} {t : Task} {r : Res} (h : Ev P false s sc t s' sc' r) :
    (∀ {env call ls res w : V} {z g : Nat}, t = .sub (.map env (.cons g) call (.cons z) res ls) env call → sc = none → sc' = none → r = .ok w →
      ∀ {N : Nat → Prop} {R0 : List Nat} {vs0 : List V} {b : Nat}, RInv N s R0 z vs0 res → Apart N s → Away N s.next env → Away N s.next call → Away N s.next ls →
      g ∉ R0 ++ [z] → g < s.next → (∀ a ∈ R0 ++ [z], b ≤ a) → b ≤ s.next →
      ∃ R vs, Spine s' R w ∧ R.map s'.car = vs0 ++ vs ∧ (∀ a ∈ R, b ≤ a) ∧
        ∀ {N2 : Nat → Prop} {f x : V} {c t q : Nat}, call = .cons c → CallCells s f x c t q g → Apart N2 s → (∀ a ∈ [z, c, t, q, g], N2 a) →
          (c ≠ g ∧ t ≠ g ∧ q ≠ g) → (∀ a ∈ [c, t, q, g], a ≠ z) → (∀ v ∈ env :: f :: x :: ls :: vs0, Away N2 s.next v) →
          ∃ s2 v vs', vs = v :: vs' ∧ Ev P false s none (.exp env call) s2 none (.ok v) ∧ (IsFn s f → MapRun P env f (vs0 ++ [v]) s2 ls vs' s')) ∧
    (∀ {env call ls res u w : V} {z g : Nat}, t = .k (.map env (.cons g) call (.cons z) res ls) u → sc = none → sc' = none → r = .ok w →
      ∀ {N : Nat → Prop} {R0 : List Nat} {vs0 : List V} {b : Nat}, RInv N s R0 z vs0 res → Apart N s → Away N s.next env → Away N s.next call → Away N s.next ls →
      g ∉ R0 ++ [z] → g < s.next → (∀ a ∈ R0 ++ [z], b ≤ a) → b ≤ s.next →
      ∃ R vs, Spine s' R w ∧ R.map s'.car = vs0 ++ u :: vs ∧ (∀ a ∈ R, b ≤ a) ∧
        ∀ {N2 : Nat → Prop} {f x : V} {c t q : Nat}, call = .cons c → CallCells s f x c t q g → Apart N2 s → (∀ a ∈ [z, c, t, q, g], N2 a) →
          (c ≠ g ∧ t ≠ g ∧ q ≠ g) → (∀ a ∈ [c, t, q, g], a ≠ z) → (∀ v ∈ env :: f :: u :: ls :: vs0, Away N2 s.next v) →
          MapRun P env f (vs0 ++ [u]) s ls vs s') := by
  induction h with
  | @sub_ok s s1 s2 sc sc' fr env0 e0 v r h1 h2 ih1 ih2 =>
    refine ⟨?_, fun e => nomatch e⟩
    rintro env call ls res w z g e rfl rfl rfl N R0 vs0 b hR hA he hc hl hg hgn hb hbn
    cases e
    obtain ⟨a1, a2, a3⟩ := ev_own hP h1 hA hc he
    obtain ⟨R, vs, k1, k2, k3, k4⟩ := ih2.2 rfl rfl rfl rfl (hR.kept a3) a1 (he.up a3) (hc.up a3) (hl.up a3) hg (Nat.lt_of_lt_of_le hgn a3.2) hb (Nat.le_trans hbn a3.2)
    refine ⟨R, v :: vs, k1, k2, k3, ?_⟩
    rintro N2 f x c t q rfl hcc hA2 hN2 hne hnz hv
    refine ⟨s1, v, vs, rfl, h1, fun hf => ?_⟩
    obtain ⟨b1, b2, b3⟩ := call_own hP hcc hf h1 hA2 (hv _ (by simp)) (hv _ (by simp)) (hv _ (by simp)) (hN2 _ (by simp)) (hN2 _ (by simp))
    have kc := b3.1 c (hN2 _ (by simp))
    have kt := b3.1 t (hN2 _ (by simp))
    have kq := b3.1 q (hN2 _ (by simp))
    have kg := b3.1 g (hN2 _ (by simp))
    refine k4 (N2 := N2) (x := x) (t := t) (q := q) rfl ⟨kc.1.trans hcc.fn, kc.2.trans hcc.args, kt.1.trans hcc.arg, kt.2.trans hcc.nil, kq.1.trans hcc.quote, kq.2.trans hcc.body,
      kg.1.trans hcc.val, kg.2.trans hcc.nil'⟩ b1 hN2 hne hnz fun v' hv' => ?_
    simp only [List.mem_cons] at hv'
    rcases hv' with rfl | rfl | rfl | rfl | hv'
    · exact (hv _ (by simp)).up b3
    · exact (hv _ (by simp)).up b3
    · exact b2
    · exact (hv _ (by simp)).up b3
    · exact (hv v' (by simp [hv'])).up b3
  | @map_more s s1 s2 s3 s' sc sc' env0 arg0 call0 last0 res0 a u0 elt r e1 e2 e3 h1 ih =>
    refine ⟨(fun e => nomatch e), ?_⟩
    rintro env call ls res u w z g e rfl rfl rfl N R0 vs0 b hR hA he hc hl hg hgn hb hbn
    cases e
    have hzn : ∀ {M : Nat → Prop}, Away M s.next (.cons a) → M z → a ≠ z := fun h1 h2 e => (h1 a rfl).1 (e ▸ h2)
    have ea : s1.car a = s.car a := by
      rw [← e1]; simp only [St.setCar]; rw [if_neg (hzn hl hR.hz)]
    have ed : s1.cdr a = s.cdr a := by rw [← e1]; rfl
    have h4 : elt = .cons s.next := by
      have : elt = (s2.cons .nil .nil).2 := by rw [e3]
      rw [this, ← e2, ← e1]; rfl
    subst h4
    have es : s3.setCdr (.cons z) (.cons s.next) = mapStep s z g u0 (s.car a) := by
      rw [← ea]
      have h3 : s3 = (s2.cons .nil .nil).1 := by rw [e3]
      rw [h3, ← e2, ← e1]; rfl
    rw [es, ed] at ih
    have hx := hA.car hl
    have hr := hA.cdr hl
    have ih1 := @ih.1
    obtain ⟨R, vs, k1, k2, k3, k4⟩ := ih1 rfl rfl rfl rfl (b := b) (hR.step hA (g := g) (u := u0) (x := s.car a) hg) (hA.mapStep hR.hz hx) he.grow hc.grow hr.grow
      (by
        rw [List.mem_append]
        rintro (h | h)
        · exact hg h
        · simp only [List.mem_singleton] at h; omega)
      (Nat.lt_succ_of_lt hgn)
      (by
        intro a' h
        rcases List.mem_append.1 h with h | h
        · exact hb a' h
        · simp only [List.mem_singleton] at h; omega)
      (Nat.le_succ_of_le hbn)
    refine ⟨R, vs, k1, by rw [k2]; simp, k3, ?_⟩
    rintro N2 f x c t q rfl hcc hA2 hN2 hne hnz hv
    have old : ∀ a' ∈ [z, c, t, q, g], a' < s.next := fun a' h => hA2.old a' (hN2 a' h)
    have hl2 : Away N2 s.next (.cons a) := hv _ (by simp)
    have sc : ∀ b', b' < s.next → b' ≠ z → b' ≠ g → (mapStep s z g u0 (s.car a)).car b' = s.car b' := fun b' h1 h2 h3 => by
      rw [mapStep_car, if_neg (by omega), if_neg h3, if_neg h2]
    have sd : ∀ b', b' < s.next → b' ≠ z → (mapStep s z g u0 (s.car a)).cdr b' = s.cdr b' := fun b' h1 h2 => by
      rw [mapStep_cdr, if_neg h2, if_neg (by omega)]
    have hg' := old g (by simp)
    have hcells : CallCells (mapStep s z g u0 (s.car a)) f (s.car a) c t q g := by
      refine ⟨?_, ?_, ?_, ?_, ?_, ?_, ?_, ?_⟩
      · rw [sc c (old _ (by simp)) (hnz _ (by simp)) hne.1, hcc.fn]
      · rw [sd c (old _ (by simp)) (hnz _ (by simp)), hcc.args]
      · rw [sc t (old _ (by simp)) (hnz _ (by simp)) hne.2.1, hcc.arg]
      · rw [sd t (old _ (by simp)) (hnz _ (by simp)), hcc.nil]
      · rw [sc q (old _ (by simp)) (hnz _ (by simp)) hne.2.2, hcc.quote]
      · rw [sd q (old _ (by simp)) (hnz _ (by simp)), hcc.body]
      · rw [mapStep_car, if_neg (by omega), if_pos rfl]
      · rw [sd g (old _ (by simp)) (hnz _ (by simp)), hcc.nil']
    obtain ⟨s5, v, vs', e5, h5, h6⟩ := k4 (N2 := fun b' => N2 b' ∨ b' = s.next) (f := f) (x := s.car a) (c := c) (t := t) (q := q) rfl hcells
      (hA2.mapStep (hN2 z (by simp)) (hA2.car hl2))
      (fun b' h => by
        simp only [List.mem_cons] at h
        rcases h with rfl | h
        · exact .inr rfl
        · exact .inl (hN2 b' (by simp only [List.mem_cons]; exact .inr h)))
      hne (fun b' h e => by have := old b' (by simp only [List.mem_cons] at h ⊢; exact .inr h); omega)
      (fun v' h => by
        simp only [List.mem_cons, List.mem_append, List.not_mem_nil, or_false] at h
        rcases h with rfl | rfl | rfl | rfl | h | rfl
        · exact (hv _ (by simp)).grow
        · exact (hv _ (by simp)).grow
        · exact (hA2.car hl2).grow
        · exact (hA2.cdr hl2).grow
        · exact (hv _ (by simp [h])).grow
        · exact (hv _ (by simp)).grow)
    subst e5
    refine .call (s1 := mapStep s z g u0 (s.car a)) ?_ hcells h5 h6
    refine sameView_of hA2 (fun v' h => hv v' ?_) (fun b' h1 h2 => ?_) rfl rfl
    · simp only [List.mem_cons, List.mem_append, List.not_mem_nil, or_false] at h ⊢
      rcases h with rfl | rfl | rfl | h | rfl <;> simp [*]
    · have h3 : b' ≠ z := fun e => h2 (e ▸ hN2 z (by simp))
      have h4 : b' ≠ g := fun e => h2 (e ▸ hN2 g (by simp))
      exact ⟨sc b' h1 h3 h4, sd b' h1 h3⟩
  | @map_last s sc env0 arg0 call0 last0 res0 ls0 u0 e0 =>
    refine ⟨(fun e => nomatch e), ?_⟩
    rintro env call ls res u w z g e rfl _ hr N R0 vs0 b hR hA he hc hl hg hgn hb hbn
    cases e
    cases hr
    refine ⟨R0 ++ [z], [], (hR.last u0).1, (hR.last u0).2, hb, ?_⟩
    rintro N2 f x c t q rfl hcc hA2 hN2 hne hnz hv
    refine .done e0 (sameView_of hA2 (fun v' h => hv v' ?_) (fun b' h1 h2 => ?_) rfl rfl)
    · simp only [List.mem_cons, List.mem_append, List.not_mem_nil, or_false] at h ⊢
      rcases h with rfl | rfl | rfl | h | rfl <;> simp [*]
    · have h3 : b' ≠ z := fun e => h2 (e ▸ hN2 z (by simp))
      refine ⟨?_, rfl⟩
      simp only [St.setCar]; rw [if_neg h3]
  | _ =>
    refine ⟨fun e => ?_, fun e => ?_⟩
    · first | cases e; done | (intro _ _ e'; cases e'; done)
    · first | cases e; done | (intro _ _ e'; cases e'; done)

end Verif.Eval
