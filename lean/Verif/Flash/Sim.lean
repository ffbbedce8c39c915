import Verif.Flash.Lemmas

/-!
# Moving data, by induction on the data
-/

namespace Verif.Flash

theorem steps_add (R : Ram) (n m : Nat) (o : Out) : steps R (n + m) o = steps R m (steps R n o) := by
  induction n generalizing o with
  | zero => simp [steps]
  | succ n ih =>
    rw [show n + 1 + m = n + m + 1 by omega]
    cases o with
    | next x => simp only [steps, ih]
    | err => simp only [steps]; cases m <;> simp [steps]
    | ub => simp only [steps]; cases m <;> simp [steps]

/-- From `o` the machine gets to the stack `K`, or the flash is full. `h0` is the heap at the start, `b` words are needed at most. -/
def Goes (R : Ram) (o : Out) (h0 : H) (g : Nat → Option V) (K : List Wd) (O : Nat → Prop) (b : Nat) (post : V → H → Prop) : Prop :=
  ∃ n, (∃ h' r', steps R n o = .next ⟨K, r', h', g⟩ ∧ Ext h0 h' O ∧ post r' h' ∧ h'.next ≤ h0.next + b) ∨
    (∃ h', steps R n o = .err 0x22 h' g ∧ Ext h0 h' O ∧ h0.size ≤ h0.next + b)

section
variable {R : Ram} {o : Out} {h0 h1 : H} {g : Nat → Option V} {K K1 : List Wd} {O O1 : Nat → Prop} {b b1 : Nat} {post post1 : V → H → Prop}

theorem Goes.next {r h} (e : Ext h0 h O) (p : post r h) (hb : h.next ≤ h0.next + b) : Goes R (.next ⟨K, r, h, g⟩) h0 g K O b post :=
  ⟨0, .inl ⟨h, r, rfl, e, p, hb⟩⟩

theorem Goes.err {h} (e : Ext h0 h O) (hb : h0.size ≤ h0.next + b) : Goes R (.err 0x22 h g) h0 g K O b post :=
  ⟨0, .inr ⟨h, rfl, e, hb⟩⟩

theorem Goes.step {m : Mc} (h : Goes R (step R m) h0 g K O b post) : Goes R (.next m) h0 g K O b post := by
  obtain ⟨n, h⟩ := h
  exact ⟨n + 1, h⟩

theorem Goes.bind (h : Goes R o h0 g K1 O1 b1 post1) (hk : ∀ r h, Ext h0 h O1 → post1 r h → h.next ≤ h0.next + b1 → Goes R (.next ⟨K1, r, h, g⟩) h0 g K O b post)
    (ho : ∀ i, i < h0.next → O1 i → O i) (hb : b1 ≤ b) : Goes R o h0 g K O b post := by
  obtain ⟨n, ⟨h', r', e, x, p, q⟩ | ⟨h', e, x, q⟩⟩ := h
  · obtain ⟨n', h2⟩ := hk r' h' x p q
    refine ⟨n + n', ?_⟩
    rw [steps_add, e]
    exact h2
  · refine ⟨n, .inr ⟨h', e, ?_, by omega⟩⟩
    exact x.weaken ho

theorem Goes.rebase (h : Goes R o h1 g K O1 b1 post) (x0 : Ext h0 h1 O) (ho : ∀ i, i < h0.next → O1 i → O i) (hb : h1.next + b1 ≤ h0.next + b) :
    Goes R o h0 g K O b post := by
  obtain ⟨n, ⟨h', r', e, x, p, q⟩ | ⟨h', e, x, q⟩⟩ := h
  · exact ⟨n, .inl ⟨h', r', e, x0.trans x ho, p, by omega⟩⟩
  · exact ⟨n, .inr ⟨h', e, x0.trans x ho, by have := x0.size; omega⟩⟩

theorem Goes.imp (h : Goes R o h0 g K O b post1) (hp : ∀ r h, Ext h0 h O → post1 r h → post r h) : Goes R o h0 g K O b post := by
  obtain ⟨n, ⟨h', r', e, x, p, q⟩ | h⟩ := h
  · exact ⟨n, .inl ⟨h', r', e, x, hp _ _ x p, q⟩⟩
  · exact ⟨n, .inr h⟩

/-- Allocating a cell. -/
theorem cell_cases {h : H} (iv : Inv h) :
    (∃ h' c, h.allocCell = (h', .ok, c) ∧ Ext h h' (fun _ => False) ∧ h'.mem = h.mem ∧ h.next ≤ c ∧ h'.next = c + 2 ∧ h'.mem c = none ∧ h'.mem (c + 1) = none ∧ h'.next ≤ h.next + 3) ∨
    (∃ h', h.allocCell = (h', .full, 0) ∧ Ext h h' (fun _ => False) ∧ h.size ≤ h.next + 2) := by
  rcases allocCell_spec iv with ⟨h', c, e, x, hm, c1, _, c3, c4⟩ | ⟨h', e, x, hm, f⟩
  · exact .inl ⟨h', c, e, x, hm, c1, c3, by rw [hm]; exact iv.free _ c1, by rw [hm]; exact iv.free _ (by omega), by omega⟩
  · exact .inr ⟨h', e, x, f⟩

theorem fill_goes {m : Mc} {c ty : Nat} {car cdr : W} (hg : m.g = g) (iv : Inv m.h) (h1 : c + 1 < m.h.next) (f0 : m.h.mem c = none) (f1 : m.h.mem (c + 1) = none) :
    Goes R (fill m K ty c car cdr) m.h g K (fun i => i = c ∨ i = c + 1) 0 (fun r h => r = .ptr ty (.flash c) ∧ h.mem c = some car ∧ h.mem (c + 1) = some cdr) := by
  subst hg
  obtain ⟨ha, e1, x1, m1, n1⟩ := write_open iv car (by omega : c < m.h.next) f0
  obtain ⟨hb, e2, x2, m2, n2⟩ := write_open x1.inv cdr (i := c + 1) (by omega) (by rw [x1.others _ h1 (by omega)]; exact f1)
  simp only [fill, H.writeCar, H.writeCdr, e1, e2, check]
  exact Goes.next ((x1.weaken (fun _ _ h => .inl h)).trans x2 (fun _ _ h => .inr h)) ⟨rfl, x2.keep _ _ m1, m2⟩ (by omega)

theorem lift_goes {m : Mc} {c data size tag : Nat} {k : Mc → Out} (hg : m.g = g) (iv : Inv m.h) (h1 : c + 1 < m.h.next) (f0 : m.h.mem c = none) (f1 : m.h.mem (c + 1) = none)
    (hb : 2 ≤ b) (hoc : O c) (hoc1 : O (c + 1))
    (hk : ∀ h' hd, Ext m.h h' (fun i => i = c ∨ i = c + 1) → h'.mem c = some (.a hd) → h'.mem (c + 1) = some (.v (.sym tag)) → h'.mem hd = some (.n size) → h'.mem (hd + 1) = some (.a data) →
      h'.next = m.h.next + 2 → Goes R (k { m with h := h' }) m.h g K O b post) :
    Goes R (liftArray m c data size tag k) m.h g K O b post := by
  subst hg
  have hs := iv.small
  rcases writeRaw_spec iv (ws := [.n size, .a data]) (by simp; omega) with ⟨h', e, x, hm, nx⟩ | ⟨e, f⟩
  · have f0' : h'.mem c = none := by rw [x.others _ (by omega) (fun h => h)]; exact f0
    have f1' : h'.mem (c + 1) = none := by rw [x.others _ (by omega) (fun h => h)]; exact f1
    have nx' := x.next
    obtain ⟨ha, e1, x1, m1, n1⟩ := write_open x.inv (.a m.h.next) (by omega : c < h'.next) f0'
    obtain ⟨hb, e2, x2, m2, n2⟩ := write_open x1.inv (.v (.sym tag)) (i := c + 1) (by omega) (by rw [x1.others _ (by omega) (by omega)]; exact f1')
    simp only [liftArray, e, check, H.writeCar, H.writeCdr, e1, e2]
    have x12 := ((x.weaken (O := fun i => i = c ∨ i = c + 1) (fun _ _ h => h.elim)).trans x1 (fun _ _ h => .inl h)).trans x2 (fun _ _ h => .inr h)
    exact hk hb m.h.next x12 (x2.keep _ _ m1) m2 (x2.keep _ _ (x1.keep _ _ (hm 0 _ rfl))) (x2.keep _ _ (x1.keep _ _ (hm 1 _ rfl))) (by simp at nx; omega)
  · simp only [liftArray, e, check]
    exact Goes.err (.refl iv) (by simp at f; omega)

end

/-- Moving a value. -/
def Moved (R : Ram) (wb lim : Nat) (d : D) : Prop :=
  ∀ {h : H} {v g K}, Inv h → h.wb = wb → lim + h.size < h.M → Rep R h.mem wb false v d →
    Goes R (.next ⟨.k 29 :: K, v, h, g⟩) h g K (fun _ => False) (need wb d) (fun r h' => Rep R h'.mem wb true r d)

/-- Moving the rest of a list, whose last cell so far is `l`. -/
def Tail (R : Ram) (wb lim : Nat) (d : D) : Prop :=
  ∀ {h : H} {v g K l fst}, Inv h → h.wb = wb → lim + h.size < h.M → Rep R h.mem wb false v d → l + 1 < h.next → h.mem (l + 1) = none → fst ≠ .nil →
    Goes R (moveListRest R ⟨K, .nil, h, g⟩ fst (.cons (.flash l)) v K) h g K (fun i => i = l + 1) (need wb d)
      (fun r h' => r = fst ∧ ∃ y, h'.mem (l + 1) = some (.v y) ∧ Rep R h'.mem wb true y d)

theorem pair_of_rep {R : Ram} {h : H} {wb : Nat} {v : V} {a d : D} (r : Rep R h.mem wb false v (.cons a d)) :
    ∃ p x y, v = .cons p ∧ pairOf R h p = some (x, y) ∧ Rep R h.mem wb false x a ∧ Rep R h.mem wb false y d := by
  cases r with
  | pair h0 r1 r2 => exact ⟨_, _, _, rfl, by simp only [pairOf, h0], r1, r2⟩
  | fpair h1 h2 r1 r2 => exact ⟨_, _, _, rfl, by simp only [pairOf, h1, h2], r1.weaken, r2.weaken⟩

theorem tail_last {R : Ram} {wb lim : Nat} {d : D} (md : Moved R wb lim d) (hd : ∀ a b, d ≠ .cons a b) : Tail R wb lim d := by
  intro h v g K l fst iv hw hl rv hn hf hfst
  have hv : ∀ p, v ≠ .cons p := by
    intro p hp; subst hp
    cases rv with
    | pair => exact hd _ _ rfl
    | fpair => exact hd _ _ rfl
  have e : moveListRest R ⟨K, .nil, h, g⟩ fst (.cons (.flash l)) v K = .next ⟨.k 29 :: .k 31 :: .v (.cons (.flash l)) :: .v fst :: K, v, h, g⟩ := by
    cases v with
    | cons p => exact absurd rfl (hv p)
    | _ => rfl
  rw [e]
  refine Goes.bind (md iv hw hl rv) ?_ (fun _ _ h => h.elim) (Nat.le_refl _)
  intro r h1 x p hb
  apply Goes.step
  obtain ⟨h2, e2, x2, m2, n2⟩ := write_open x.inv (.v r) (i := l + 1) (by have := x.next; omega) (by rw [x.others _ hn (fun h => h)]; exact hf)
  simp only [step, closeList, H.writeCdr, e2, check]
  exact Goes.next ((x.weaken (fun _ _ h => h.elim)).trans x2 (fun _ _ h => h)) ⟨rfl, r, m2, p.mono x2.keep⟩ (by omega)

theorem moved_cons {R : Ram} {wb lim : Nat} {a d : D} (ma : Moved R wb lim a) (td : Tail R wb lim d) : Moved R wb lim (.cons a d) := by
  intro h v g K iv hw hl rv
  obtain ⟨p, x, y, rfl, hp, r1, r2⟩ := pair_of_rep rv
  apply Goes.step
  simp only [step, dispatch, hp]
  refine Goes.bind (ma iv hw hl r1) ?_ (fun _ _ h => h) (by simp only [need]; omega)
  intro r h1 x1 p1 hb1
  apply Goes.step
  simp only [step, moveList]
  refine Goes.rebase (O1 := fun _ => False) (b1 := need wb d + 3) ?_ x1 (fun _ _ h => h) (by simp only [need]; omega)
  rcases cell_cases x1.inv with ⟨h2, c, e2, x2, hm, c1, c2, f0, f1, hb2⟩ | ⟨h2, e2, x2, f⟩
  case inr => simp only [e2, check]; exact Goes.err (x2.weaken (fun _ _ h => h.elim)) (by omega)
  obtain ⟨h3, e3, x3, m3, n3⟩ := write_open x2.inv (.v r) (i := c) (by omega) f0
  simp only [e2, H.writeCar, e3, check, if_true]
  have x23 : Ext h1 h3 (fun _ => False) := x2.trans x3 (fun i hi h => by omega)
  have x13 := x1.trans x23 (fun _ _ h => h)
  refine Goes.rebase (Goes.imp (td (l := c) (fst := .cons (.flash c)) x3.inv (x13.wb.trans hw) (by rw [x13.size, x13.M]; exact hl) (r2.mono x13.keep) (by omega) ?_ (by simp)) ?_) x23 ?_ (by omega)
  · rw [x3.others _ (by omega) (by omega)]; exact f1
  · rintro r' h' x4 ⟨rfl, y', hy, ry⟩
    exact .fpair (x4.keep _ _ m3) hy ((p1.mono x23.keep).mono x4.keep) ry
  · intro i hi h; omega

theorem tail_cons {R : Ram} {wb lim : Nat} {a d : D} (ma : Moved R wb lim a) (td : Tail R wb lim d) : Tail R wb lim (.cons a d) := by
  intro h v g K l fst iv hw hl rv hn hf hfst
  obtain ⟨p, x, y, rfl, hp, r1, r2⟩ := pair_of_rep rv
  simp only [moveListRest, hp]
  refine Goes.bind (ma iv hw hl r1) ?_ (fun _ _ h => h.elim) (by simp only [need]; omega)
  intro r h1 x1 p1 hb1
  have hn1 := x1.next
  apply Goes.step
  simp only [step, moveList, hfst, if_false]
  refine Goes.rebase (O1 := fun i => i = l + 1) (b1 := need wb d + 3) ?_ (x1.weaken (fun _ _ h => h.elim)) (fun _ _ h => h) (by simp only [need]; omega)
  rcases cell_cases x1.inv with ⟨h2, c, e2, x2, hm, c1, c2, f0, f1, hb2⟩ | ⟨h2, e2, x2, f⟩
  case inr => simp only [e2, check]; exact Goes.err (x2.weaken (fun _ _ h => h.elim)) (by omega)
  have hfl : h2.mem (l + 1) = none := by rw [hm, x1.others _ hn (fun h => h)]; exact hf
  obtain ⟨h3, e3, x3, m3, n3⟩ := write_open x2.inv (.v (.cons (.flash c))) (i := l + 1) (by omega) hfl
  obtain ⟨h4, e4, x4, m4, n4⟩ := write_open x3.inv (.v r) (i := c) (by omega) (by rw [x3.others _ (by omega) (by omega)]; exact f0)
  simp only [e2, H.writeCar, H.writeCdr, e3, e4, check]
  have x14 : Ext h1 h4 (fun i => i = l + 1) := ((x2.weaken (fun _ _ h => h.elim)).trans x3 (fun _ _ h => h)).trans x4 (fun i hi h => by omega)
  have x04 := (x1.weaken (O := fun i => i = l + 1) (fun _ _ h => h.elim)).trans x14 (fun _ _ h => h)
  refine Goes.rebase (Goes.imp (td (l := c) (fst := fst) x4.inv (x04.wb.trans hw) (by rw [x04.size, x04.M]; exact hl) (r2.mono x04.keep) (by omega) ?_ hfst) ?_) x14 ?_ (by omega)
  · rw [x4.others _ (by omega) (by omega), x3.others _ (by omega) (by omega)]; exact f1
  · rintro r' h' x5 ⟨rfl, y', hy, ry⟩
    exact ⟨rfl, _, x5.keep _ _ (x4.keep _ _ m3), .fpair (x5.keep _ _ m4) hy ((p1.mono x14.keep).mono x5.keep) ry⟩
  · intro i hi h; omega

theorem moved_imm {R : Ram} {wb lim n : Nat} : Moved R wb lim (.imm n) := by
  intro h v g K iv hw hl rv
  cases rv
  exact Goes.step (Goes.next (.refl iv) .imm (Nat.le_add_right _ _))

theorem moved_raw {R : Ram} {wb lim ty tag w : Nat} : Moved R wb lim (.raw ty tag w) := by
  intro h v g K iv hw hl rv
  cases rv with
  | fraw h1 h2 => exact Goes.step (Goes.next (.refl iv) (.fraw h1 h2) (Nat.le_add_right _ _))
  | raw h0 =>
    apply Goes.step
    simp only [step, dispatch, h0]
    rcases cell_cases iv with ⟨h2, c, e2, x2, hm, c1, c2, f0, f1, hb2⟩ | ⟨h2, e2, x2, f⟩
    case inr => simp only [e2, check]; exact Goes.err x2 (by simp only [need]; omega)
    simp only [e2, check]
    refine Goes.rebase (Goes.imp (fill_goes (m := ⟨_, _, h2, g⟩) rfl x2.inv (by simp only; omega) f0 f1) ?_) x2 (fun i hi h => by omega) (by simp only [need]; omega)
    rintro r h3 x3 ⟨rfl, m1, m2⟩
    exact .fraw m1 m2

theorem moved_ind {R : Ram} {wb lim ty tag w0 w1 : Nat} : Moved R wb lim (.ind ty tag w0 w1) := by
  intro h v g K iv hw hl rv
  cases rv with
  | find h1 h2 h3 h4 => exact Goes.step (Goes.next (.refl iv) (.find h1 h2 h3 h4) (Nat.le_add_right _ _))
  | ind h0 =>
    apply Goes.step
    simp only [step, dispatch, h0]
    have hs := iv.small
    rcases writeRaw_spec iv (ws := [.n w0, .n w1]) (by simp; omega) with ⟨h1, e, x, m1, nx⟩ | ⟨e, f⟩
    case inr => simp only [e, check]; exact Goes.err (.refl iv) (by simp at f; simp only [need]; omega)
    simp only [List.length_cons, List.length_nil] at nx
    rcases cell_cases x.inv with ⟨h2, c, e2, x2, hm, c1, c2, f0, f1, hb2⟩ | ⟨h2, e2, x2, f⟩
    case inr => simp only [e, e2, check]; exact Goes.err (x.trans x2 (fun _ _ h => h)) (by have := x.size; simp only [need]; omega)
    simp only [e, e2, check]
    refine Goes.rebase (Goes.imp (fill_goes (m := ⟨_, _, h2, g⟩) rfl x2.inv (by simp only; omega) f0 f1) ?_) (x.trans x2 (fun _ _ h => h)) (fun i hi h => by omega) (by simp only [need]; omega)
    rintro r h3 x3 ⟨rfl, m3, m4⟩
    exact .find m3 m4 (x3.keep _ _ (x2.keep _ _ (m1 0 _ rfl))) (x3.keep _ _ (x2.keep _ _ (m1 1 _ rfl)))

theorem moved_bytes {R : Ram} {wb lim ty : Nat} {bs : List (BitVec 8)} (hlim : bs.length / wb ≤ lim) : Moved R wb lim (.bytes ty bs) := by
  intro h v g K iv hw hl rv
  cases rv with
  | fbytes h1 h2 h3 h4 b e => exact Goes.step (Goes.next (.refl iv) (.fbytes h1 h2 h3 h4 b e) (Nat.le_add_right _ _))
  | bytes h0 =>
    apply Goes.step
    simp only [step, dispatch, h0]
    subst hw
    rcases writePadded_spec iv (bs := bs) (by omega) with ⟨h1, p, n, all, e, x, by1, hby, nx⟩ | ⟨h1, e, x, f⟩ | ⟨h1, p, e, x, f⟩
    case inr.inl => simp only [e, check]; exact Goes.err x (by simp only [need]; omega)
    case inr.inr => simp only [e, check]; exact Goes.err x (by simp only [need]; omega)
    rcases cell_cases x.inv with ⟨h2, c, e2, x2, hm, c1, c2, f0, f1, hb2⟩ | ⟨h2, e2, x2, f⟩
    case inr => simp only [e, e2, check]; exact Goes.err (x.trans x2 (fun _ _ h => h)) (by have := x.size; simp only [need]; omega)
    simp only [e, e2, check]
    have x02 := x.trans x2 (fun _ _ h => h)
    have hn := x.next
    refine Goes.rebase (O1 := fun i => i = c ∨ i = c + 1) (b1 := 2) ?_ x02 (fun i hi h => by omega) (by simp only [need]; omega)
    refine lift_goes (m := ⟨_, _, h2, g⟩) rfl x2.inv (by simp only; omega) f0 f1 (by omega) (.inl rfl) (.inr rfl) ?_
    intro h3 hd x3 m1 m2 m3 m4 n3
    exact Goes.next x3 (.fbytes m1 m2 m3 m4 (by1.mono (fun i w hw => x3.keep _ _ (x2.keep _ _ hw))) hby) (by simp only at n3 ⊢; omega)

theorem needs_drop (wb : Nat) (ds : List D) (k : Nat) (d : D) (h : ds[k]? = some d) : needs wb (ds.drop k) = need wb d + needs wb (ds.drop (k + 1)) := by
  induction ds generalizing k with
  | nil => simp at h
  | cons x xs ih =>
    cases k with
    | zero => simp at h; subst h; simp [needs]
    | succ k => simp at h; simpa using ih k h

/-- Moving the elements of an array from index `ix` on. -/
theorem arr_goes {R : Ram} {wb lim ty a c hd p : Nat} {xs : List V} {ds : List D} (mds : ∀ d, d ∈ ds → Moved R wb lim d) (ha : R a = .arr xs) (hlen : xs.length = ds.length)
    {K : List Wd} {g} : ∀ (n ix : Nat) {h : H} {x : V}, n + ix + 1 = xs.length → Inv h → h.wb = wb → lim + h.size < h.M → xs[ix]? = some x →
    (∀ (k : Nat) x d, xs[k]? = some x → ds[k]? = some d → Rep R h.mem wb false x d) →
    h.mem c = some (.a hd) → h.mem (hd + 1) = some (.a p) → p + xs.length ≤ h.next → (∀ k, ix ≤ k → k < xs.length → h.mem (p + k) = none) →
    ∀ (ys : List V), ys.length = ix → (∀ (k : Nat) y, ys[k]? = some y → h.mem (p + k) = some (.v y)) → (∀ (k : Nat) y d, ys[k]? = some y → ds[k]? = some d → Rep R h.mem wb true y d) →
    Goes R (.next ⟨.k 29 :: .k 43 :: .v (.ptr ty (.ram a)) :: .u ix :: .v (.ptr ty (.flash c)) :: K, x, h, g⟩) h g K (fun i => p ≤ i ∧ i < p + xs.length) (needs wb (ds.drop ix))
      (fun r h' => r = .ptr ty (.flash c) ∧ ∃ ys : List V, ys.length = ds.length ∧ (∀ (k : Nat) y, ys[k]? = some y → h'.mem (p + k) = some (.v y)) ∧
        (∀ (k : Nat) y d, ys[k]? = some y → ds[k]? = some d → Rep R h'.mem wb true y d)) := by
  intro n
  induction n with
  | zero =>
    intro ix h x hix iv hw hl hx hr mc mh hp hfree ys hys y1 y2
    obtain ⟨d, hd'⟩ : ∃ d, ds[ix]? = some d := ⟨ds[ix]'(by omega), List.getElem?_eq_getElem (by omega)⟩
    rw [needs_drop wb ds ix d hd']
    refine Goes.bind (mds d (List.mem_of_getElem? hd') iv hw hl (hr ix x d hx hd')) ?_ (fun _ _ h => h.elim) (by omega)
    intro r h1 x1 p1 hb1
    have hn1 := x1.next
    apply Goes.step
    obtain ⟨h2, e2, x2, m2, n2⟩ := write_open x1.inv (.v r) (i := p + ix) (by omega) (by rw [x1.others _ (by omega) (fun h => h)]; exact hfree ix (by omega) (by omega))
    have hc : xs.length ≠ 0 ∧ ix ≥ xs.length - 1 := by omega
    simp only [step, moveArr, ha, x1.keep _ _ mc, x1.keep _ _ mh, H.constWrite, e2, check]
    rw [if_pos hc]
    have x02 : Ext h h2 (fun i => p ≤ i ∧ i < p + xs.length) := (x1.weaken (fun _ _ h => h.elim)).trans x2 (fun i _ h => by omega)
    refine Goes.next x02 ⟨rfl, ys ++ [r], by simp; omega, ?_, ?_⟩ (by omega)
    · intro k y hk
      by_cases h : k < ys.length
      · rw [List.getElem?_append_left h] at hk; exact x02.keep _ _ (y1 k y hk)
      · rw [List.getElem?_append_right (by omega)] at hk
        have : k = ix := by
          have := (List.getElem?_eq_some_iff.1 hk).1
          simp at this; omega
        subst this
        simp [hys] at hk; subst hk; exact m2
    · intro k y d' hk hk'
      by_cases h : k < ys.length
      · rw [List.getElem?_append_left h] at hk; exact (y2 k y d' hk hk').mono x02.keep
      · rw [List.getElem?_append_right (by omega)] at hk
        have : k = ix := by
          have := (List.getElem?_eq_some_iff.1 hk).1
          simp at this; omega
        subst this
        simp [hys] at hk; subst hk
        rw [hd'] at hk'; cases hk'
        exact p1.mono x2.keep
  | succ n ih =>
    intro ix h x hix iv hw hl hx hr mc mh hp hfree ys hys y1 y2
    obtain ⟨d, hd'⟩ : ∃ d, ds[ix]? = some d := ⟨ds[ix]'(by omega), List.getElem?_eq_getElem (by omega)⟩
    obtain ⟨x', hx'⟩ : ∃ x', xs[ix + 1]? = some x' := ⟨xs[ix + 1]'(by omega), List.getElem?_eq_getElem (by omega)⟩
    rw [needs_drop wb ds ix d hd']
    refine Goes.bind (mds d (List.mem_of_getElem? hd') iv hw hl (hr ix x d hx hd')) ?_ (fun _ _ h => h.elim) (by omega)
    intro r h1 x1 p1 hb1
    have hn1 := x1.next
    apply Goes.step
    obtain ⟨h2, e2, x2, m2, n2⟩ := write_open x1.inv (.v r) (i := p + ix) (by omega) (by rw [x1.others _ (by omega) (fun h => h)]; exact hfree ix (by omega) (by omega))
    have hc : ¬ (xs.length ≠ 0 ∧ ix ≥ xs.length - 1) := by omega
    simp only [step, moveArr, ha, x1.keep _ _ mc, x1.keep _ _ mh, H.constWrite, e2, check]
    rw [if_neg hc, hx']
    have x02 : Ext h h2 (fun i => p ≤ i ∧ i < p + xs.length) := (x1.weaken (fun _ _ h => h.elim)).trans x2 (fun i _ h => by omega)
    have hn2 := x02.next
    refine Goes.rebase (ih (ix + 1) (h := h2) (x := x') (by omega) x2.inv (x02.wb.trans hw) (by rw [x02.size, x02.M]; exact hl) hx' (fun k x d h1 h2 => (hr k x d h1 h2).mono x02.keep)
      (x02.keep _ _ mc) (x02.keep _ _ mh) (by omega) ?_ (ys ++ [r]) (by simp [hys]) ?_ ?_) x02 (fun i _ h => h) (by omega)
    · intro k k1 k2
      rw [x2.others _ (by omega) (by omega), x1.others _ (by omega) (fun h => h)]
      exact hfree k (by omega) k2
    · intro k y hk
      by_cases h : k < ys.length
      · rw [List.getElem?_append_left h] at hk; exact x02.keep _ _ (y1 k y hk)
      · rw [List.getElem?_append_right (by omega)] at hk
        have : k = ix := by
          have := (List.getElem?_eq_some_iff.1 hk).1
          simp at this; omega
        subst this
        simp [hys] at hk; subst hk; exact m2
    · intro k y d' hk hk'
      by_cases h : k < ys.length
      · rw [List.getElem?_append_left h] at hk; exact (y2 k y d' hk hk').mono x02.keep
      · rw [List.getElem?_append_right (by omega)] at hk
        have : k = ix := by
          have := (List.getElem?_eq_some_iff.1 hk).1
          simp at this; omega
        subst this
        simp [hys] at hk; subst hk
        rw [hd'] at hk'; cases hk'
        exact p1.mono x2.keep

theorem moved_arr {R : Ram} {wb lim ty : Nat} {ds : List D} (mds : ∀ d, d ∈ ds → Moved R wb lim d) (hne : ds ≠ []) (hlim : ds.length ≤ lim) : Moved R wb lim (.arr ty ds) := by
  intro h v g K iv hw hl rv
  cases rv with
  | farr h1 h2 h3 h4 l e r => exact Goes.step (Goes.next (.refl iv) (.farr h1 h2 h3 h4 l e r) (Nat.le_add_right _ _))
  | @arr a _ _ xs h0 hlen hr =>
    apply Goes.step
    simp only [step, dispatch, h0]
    rcases cell_cases iv with ⟨h1, c, e1, x1, hm, c1, c2, f0, f1, hb2⟩ | ⟨h1, e1, x1, f⟩
    case inr => simp only [e1, check]; exact Goes.err x1 (by simp only [need]; omega)
    rcases allocRaw_spec x1.inv (n := xs.length) (by rw [x1.size, x1.M]; omega) with ⟨h2, e2, x2, hm2, n2⟩ | ⟨e2, f⟩
    case inr => simp only [e1, e2, check]; exact Goes.err x1 (by have := x1.size; simp only [need]; omega)
    simp only [e1, e2, check]
    have x02 := x1.trans x2 (fun _ _ h => h)
    refine Goes.rebase (O1 := fun i => c ≤ i) (b1 := 2 + needs wb ds) ?_ x02 (fun i hi h => by omega) (by simp only [need]; omega)
    refine lift_goes (m := ⟨_, _, h2, g⟩) rfl x2.inv (by simp only; omega) (by simp only [hm2]; exact f0) (by simp only [hm2]; exact f1) (by omega) (by omega) (by omega) ?_
    intro h3 hd x3 m1 m2 m3 m4 n3
    simp only at x3 n3
    cases xs with
    | nil => simp at hlen; exact absurd (List.eq_nil_of_length_eq_zero hlen.symm) hne
    | cons x xs =>
      simp only
      have x03 := x02.trans (x3.weaken (O := fun i => i = c ∨ i = c + 1) (fun _ _ h => h)) (fun i hi h => by omega)
      have := arr_goes (R := R) (lim := lim) (ty := ty) (a := a) (c := c) (hd := hd) (p := h1.next) (K := K) (g := g) mds h0 hlen xs.length 0 (h := h3) (x := x) (by simp) x3.inv (x03.wb.trans hw)
        (by rw [x03.size, x03.M]; exact hl) rfl (fun k x d h1 h2 => (hr k x d h1 h2).mono x03.keep) m1 m4 (by omega) ?_ [] rfl (by simp) (by simp)
      · refine Goes.rebase (Goes.imp this ?_) (x3.weaken (fun i _ h => by omega)) (fun i hi h => by omega) (by simp; omega)
        rintro r h' x4 ⟨rfl, ys, l, y1, y2⟩
        refine .farr (x4.keep _ _ m1) (x4.keep _ _ m2) (x4.keep _ _ ?_) (x4.keep _ _ m4) l y1 y2
        rw [m3, hlen, hw]
      · intro k _ hk
        rw [x3.others _ (by omega) (by omega), hm2]
        exact x1.inv.free _ (by omega)

theorem moved_all {R : Ram} {wb lim : Nat} (d : D) (f : Fits wb lim d) : Moved R wb lim d ∧ Tail R wb lim d := by
  cases d with
  | imm n => exact ⟨moved_imm, tail_last moved_imm (by simp)⟩
  | raw => exact ⟨moved_raw, tail_last moved_raw (by simp)⟩
  | ind => exact ⟨moved_ind, tail_last moved_ind (by simp)⟩
  | bytes ty bs =>
    have : Moved R wb lim (.bytes ty bs) := by cases f with | bytes h => exact moved_bytes h
    exact ⟨this, tail_last this (by simp)⟩
  | cons a d =>
    cases f with
    | cons fa fd =>
      have h1 := moved_all (R := R) a fa
      have h2 := moved_all (R := R) d fd
      exact ⟨moved_cons h1.1 h2.2, tail_cons h1.1 h2.2⟩
  | arr ty ds =>
    have : Moved R wb lim (.arr ty ds) := by
      cases f with
      | arr h1 h2 h3 =>
        refine moved_arr (fun d hd => ?_) h1 h2
        have := List.sizeOf_lt_of_mem hd
        intro h v g K; exact (moved_all (R := R) d (h3 d hd)).1
    exact ⟨this, tail_last this (by simp)⟩
termination_by sizeOf d

end Verif.Flash
