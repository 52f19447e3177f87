import Verif.Vfi.LogReadProps

/-! # What the log of a run says (C108) -/

namespace Verif.Vfi
open Verif Verif.Fp Verif.Vprec.Config

/-! ## The text of the arguments -/

/-- An argument of scalar type with its number. -/
def Arg.Scalar (a : Arg) : Prop := a.ty.isPtr = false ∧ Plain a.id ∧ ∃ v rest, a.mem = some (v :: rest) ∧ v.WF a.ty.fmt

theorem Arg.Scalar.readable {a : Arg} (h : a.Scalar) : a.Readable := fun mem hm => by
  obtain ⟨hp, -, v, rest, hv, -⟩ := h
  rw [hv] at hm
  cases hm
  exact ⟨by simp, fun hq => by rw [hp] at hq; cases hq⟩

/-- The number of a line is what it was before, or the rounding of it to the format of the line, which the configuration asks for. -/
def Entry.Just (sem : ShiftSem) (cfg : Cfg) (inst : InstMode) : Entry → Prop
  | .value _ inp _ dbl _ v w m e => w = v ∨ ((inst = .all ∨ inst = .arg) ∧ (cfg.mode = .full ∨ cfg.mode = if inp then .ib else .ob) ∧
      ∃ x y, Vprec.roundBinary sem (if dbl then b64 else b32) (if dbl then 64 else 32) x inp cfg.ctx e.toNat m = .ok y ∧
        v = (if dbl then x else fconv b32 b64 x) ∧ w = (if dbl then y else fconv b32 b64 y))
  | _ => True

/-- The conditions under which arguments are rounded. -/
def Asked (cfg : Cfg) (inst : InstMode) (inp mf : Bool) (c : Cfg) : Prop :=
  c.ctx = cfg.ctx ∧ (mf = true → (inst = .all ∨ inst = .arg) ∧ (cfg.mode = .full ∨ cfg.mode = if inp then .ib else .ob))

theorem text_append (a b : List Entry) : text (a ++ b) = text a ++ text b := List.flatMap_append

theorem text_one (a : Entry) : text [a] = a.line ++ ['\n'] := List.flatMap_singleton _ _

theorem text_cons (a : Entry) (b : List Entry) : text (a :: b) = a.line ++ ['\n'] ++ text b := List.flatMap_cons

theorem touch_first {sem : ShiftSem} {c : Cfg} {inp new mf : Bool} {ty : FTy} {e m : Int} {v : Bits} {rest : List Bits} {d : ArgData}
    {s' : List Bits × ArgData} (h : touch sem c inp new mf ty e m (v :: rest, d) = .ok s') :
    ∃ w, s'.1 = w :: rest ∧ (w = v ∨ (new = false ∧ mf = true ∧ Vprec.roundBinary sem ty.fmt ty.width v inp c.ctx e.toNat m = .ok w)) := by
  unfold touch roundFirst at h
  obtain ⟨mem, h1, h⟩ := bind_ok_inv h
  have hl : ∃ w, mem = w :: rest ∧ (w = v ∨ (new = false ∧ mf = true ∧ Vprec.roundBinary sem ty.fmt ty.width v inp c.ctx e.toNat m = .ok w)) := by
    dsimp only at h1
    split at h1
    · next hn =>
      obtain ⟨v', h2, h1⟩ := bind_ok_inv h1
      rw [Outcome.pure_eq, Outcome.ok.injEq] at h1
      simp only [Bool.and_eq_true, Bool.not_eq_true'] at hn
      exact ⟨v', h1.symm, .inr ⟨hn.1, hn.2, h2⟩⟩
    · rw [Outcome.ok.injEq] at h1
      exact ⟨v, h1.symm, .inl rfl⟩
  split at h
  · cases h
  · obtain ⟨d, -, h⟩ := bind_ok_inv h
    rw [Outcome.pure_eq, Outcome.ok.injEq] at h
    rw [← h]; exact hl

theorem promote_wf {t : FTy} {v : Bits} (h : v.WF t.fmt) : (t.promote v).WF b64 := by
  unfold FTy.promote
  split
  · next hf => rw [← hf]; exact h
  · exact fconv_wf _ _ (by decide) v

theorem valueLine (inp : Bool) (fid : Id) (a : Arg) (h : a.ty.isPtr = false) (d j : Nat) (v w : Bits) (m e : Int) :
    List.replicate d '\t' ++ (lead inp fid a j ++ (Probes.hexA v ++ "\t->\t".toList)) ++
      (List.replicate d '\t' ++ (Probes.hexA w ++ ("\t(".toList ++ (dec m ++ ((if inp then ", ".toList else ",".toList) ++ (dec e ++ ")\n".toList)))))) =
    text [.value d inp fid (a.ty == .double) a.id v w m e] := by
  have e1 : "\t->\t".toList = '\t' :: ("->".toList ++ ['\t']) := rfl
  have e2 : "\t(".toList = ['\t', '('] := rfl
  have e3 : (if inp then ", ".toList else ",".toList) = ',' :: (if inp then [' '] else []) := by cases inp <;> rfl
  have e4 : ")\n".toList = [')', '\n'] := rfl
  have e5 : " - ".toList ++ (if inp then "input".toList else "output".toList) = if inp then " - input".toList else " - output".toList := by
    cases inp <;> rfl
  have e6 : a.ty.text = if (a.ty == .double) = true then "double".toList else "float".toList := by
    cases ht : a.ty <;> rw [ht] at h <;> first | rfl | cases h
  rw [text_one]
  show _ = List.replicate d '\t' ++ valueBody d inp fid (a.ty == .double) a.id v w m e ++ ['\n']
  unfold valueBody lead
  rw [h, ← e5, ← e6, e1, e2, e3, e4]
  generalize " - ".toList = s1, (if inp then "input".toList else "output".toList) = s2, "->".toList = s3, a.ty.text = s4, (if inp then [' '] else []) = s5
  simp only [Bool.false_eq_true, if_false, List.append_assoc, List.cons_append, List.nil_append]

/-- The line of an argument. -/
theorem doArg_text {sem : ShiftSem} {c : Cfg} {inp new mf : Bool} {fid : Id} {a a' : Arg} {d d' : ArgData} {l l' : Log} {cfg : Cfg} {inst : InstMode}
    (hk : Asked cfg inst inp mf c) (ho : l.isOpen = true) (hf : Plain fid) (hs : a.Scalar) (h : doArgL sem c inp new mf fid a d l = .ok ((a', d'), l')) :
    l' = { l with out := l.out ++ text [.value l.depth inp fid (a.ty == .double) a.id a.number a'.number d.manLen d.expLen] } ∧
    (Entry.value l.depth inp fid (a.ty == .double) a.id a.number a'.number d.manLen d.expLen).Clean ∧
    (Entry.value l.depth inp fid (a.ty == .double) a.id a.number a'.number d.manLen d.expLen).Just sem cfg inst := by
  obtain ⟨hp, hi, v, rest, hm, hv⟩ := hs
  simp only [doArgL, hm, hp, Bool.false_eq_true, if_false] at h
  obtain ⟨l1, h1, h⟩ := bind_ok_inv h
  obtain ⟨s, h2, h⟩ := bind_ok_inv h
  obtain ⟨l2, h3, h⟩ := bind_ok_inv h
  rw [Outcome.pure_eq, Outcome.ok.injEq] at h
  obtain ⟨w, hw, hr⟩ := touch_first h2
  simp only [Prod.mk.injEq] at h
  obtain ⟨⟨rfl, -⟩, rfl⟩ := h
  unfold logHead at h1
  rw [if_pos ho, hm] at h1
  simp only [List.getElem?_cons_zero, Outcome.ok.injEq] at h1
  subst h1
  unfold logTail at h3
  rw [print_open, if_pos ho, hw] at h3
  simp only [List.getElem?_cons_zero, Outcome.ok.injEq] at h3
  subst h3
  have hn : a.number = a.ty.promote v := by unfold Arg.number; rw [hm]; rfl
  have hn' : ({ a with mem := some s.1 } : Arg).number = a.ty.promote w := by unfold Arg.number; rw [hw]; rfl
  rw [hn, hn']
  have hw' : w.WF a.ty.fmt := by
    rcases hr with rfl | ⟨-, -, hr⟩
    · exact hv
    · exact Vprec.roundBinary_wf sem _ (by cases a.ty <;> simp [FTy.fmt]) _ v w _ _ _ _ hv hr
  refine ⟨?_, ⟨hf, hi, promote_wf hv, promote_wf hw'⟩, ?_⟩
  · unfold Log.print
    simp only [ho, if_true]
    rw [← valueLine inp fid a hp l.depth 0, List.append_assoc]
    try simp only [List.append_assoc]
  · rcases hr with rfl | ⟨-, hmf, hr⟩
    · exact .inl rfl
    · obtain ⟨k1, k2⟩ := hk
      rw [k1] at hr
      refine .inr ⟨(k2 hmf).1, (k2 hmf).2, v, w, ?_⟩
      cases ht : a.ty <;> rw [ht] at hp hr <;> first | exact ⟨hr, rfl, rfl⟩ | cases hp

/-- The lines of the arguments. -/
theorem doArgs_text {sem : ShiftSem} {c : Cfg} {inp new mf : Bool} {fid : Id} {cfg : Cfg} {inst : InstMode} (hk : Asked cfg inst inp mf c) : ∀ {as as' : List Arg} {ds ds' : List ArgData} {l l' : Log},
    l.isOpen = true → Plain fid → (∀ a ∈ as, a.Scalar) → doArgsL sem c inp new mf fid as ds l = .ok ((as', ds'), l') →
    l' = { l with out := l.out ++ text (values l.depth inp fid ds as as') } ∧ ∀ e ∈ values l.depth inp fid ds as as', e.Clean ∧ e.Just sem cfg inst
  | [], as', ds, ds', l, l', _, _, _, h => by
    simp only [doArgsL, Outcome.ok.injEq, Prod.mk.injEq] at h
    obtain ⟨⟨rfl, -⟩, rfl⟩ := h
    cases ds <;> exact ⟨by simp [values, text], by simp [values]⟩
  | _ :: _, _, [], _, _, _, _, _, _, h => by rw [doArgsL] at h; cases h
  | a :: as, as', d :: ds, ds', l, l', ho, hf, hs, h => by
    rw [doArgsL] at h
    obtain ⟨⟨⟨a1, d1⟩, l1⟩, h1, h⟩ := bind_ok_inv h
    obtain ⟨⟨⟨as1, ds1⟩, l2⟩, h2, h⟩ := bind_ok_inv h
    simp only [Outcome.pure_eq, Outcome.ok.injEq, Prod.mk.injEq] at h
    obtain ⟨⟨rfl, -⟩, rfl⟩ := h
    obtain ⟨e1, c1⟩ := doArg_text hk ho hf (hs a (by simp)) h1
    obtain ⟨e2, c2⟩ := doArgs_text hk (by rw [e1]; exact ho) hf (fun b hb => hs b (by simp [hb])) h2
    rw [e1] at e2 c2
    refine ⟨?_, ?_⟩
    · rw [e2, values, text_one, text_cons]
      simp only [List.append_assoc]
    · intro e he
      rw [values] at he
      rcases List.mem_cons.1 he with rfl | he
      · exact c1
      · exact c2 e he

theorem withArgs_text {sem : ShiftSem} {c : Cfg} {inp mf : Bool} {fid : Id} {as as' : List Arg} {recs recs' : Option (List ArgData)} {l l' : Log} {cfg : Cfg} {inst : InstMode}
    (hk : Asked cfg inst inp mf c) (ho : l.isOpen = true) (hf : Plain fid) (hs : ∀ a ∈ as, a.Scalar) (h : withArgsL sem c inp mf fid as recs l = .ok ((as', recs'), l')) :
    l' = { l with out := l.out ++ text (values l.depth inp fid (formats recs as.length) as as') } ∧
      ∀ e ∈ values l.depth inp fid (formats recs as.length) as as', e.Clean ∧ e.Just sem cfg inst := by
  unfold withArgsL at h
  dsimp only at h
  cases recs with
  | none =>
    cases as with
    | nil =>
      simp only [Option.isNone_none, List.length_nil, Nat.lt_irrefl, decide_false, Bool.and_false, Bool.false_eq_true, if_false,
        Outcome.ok.injEq, Prod.mk.injEq] at h
      obtain ⟨⟨rfl, -⟩, rfl⟩ := h
      exact ⟨by simp [formats, values, text], by simp [formats, values]⟩
    | cons a as =>
      rw [if_pos (by simp)] at h
      obtain ⟨⟨⟨as1, ds1⟩, l1⟩, h1, h⟩ := bind_ok_inv h
      simp only [Outcome.pure_eq, Outcome.ok.injEq, Prod.mk.injEq] at h
      obtain ⟨⟨rfl, -⟩, rfl⟩ := h
      exact doArgs_text hk ho hf hs h1
  | some ds =>
    rw [if_neg (by simp)] at h
    obtain ⟨⟨⟨as1, ds1⟩, l1⟩, h1, h⟩ := bind_ok_inv h
    simp only [Outcome.pure_eq, Outcome.ok.injEq, Prod.mk.injEq] at h
    obtain ⟨⟨rfl, -⟩, rfl⟩ := h
    exact doArgs_text hk ho hf hs h1

/-! ## The text of a run -/

/-- The records of the functions of the program have their names. -/
def Named (C : List Info) (vmap : Nat → Option Fn) : Prop := ∀ k f, vmap k = some f → ∀ c ∈ C, hash c.id = k → f.info.id = c.id

theorem opsText_eq (f : Fn) : opsText f = opsLine f.info.id f.ops ++ ['\n'] := by
  unfold opsText opsLine Fn.ops
  simp

theorem print_text {l : Log} (ho : l.isOpen = true) (t : List Char) : l.print t = { l with out := l.out ++ (List.replicate l.depth '\t' ++ t) } := by
  unfold Log.print; rw [if_pos ho]

theorem setOps_context {f : Fn} {c c' : Cfg} (h : setOps f c = .ok c') : c'.ctx = c.ctx := by
  unfold setOps at h
  obtain ⟨c1, h1, h⟩ := bind_ok_inv h
  obtain ⟨c2, h2, h⟩ := bind_ok_inv h
  obtain ⟨c3, h3, h⟩ := bind_ok_inv h
  unfold setPrec64 at h1
  unfold setRange64 at h2
  unfold setPrec32 at h3
  unfold setRange32 at h
  split_ifs at h1 h2 h3 h
  injection h1 with h1; injection h2 with h2; injection h3 with h3; injection h with h
  subst h1 h2 h3 h
  rfl

/-- What the hooks leave of the configuration. -/
def Kept (cfg c : Cfg) : Prop := c.ctx = cfg.ctx ∧ c.mode = cfg.mode

theorem vfiEnter_text {sem : ShiftSem} {st st' : St} {as as' : List Arg} {l l' : Log} {c : Info} {o : Int × Int × Int × Int}
    (hrd : st.stack.rd st.stack.top = .ok (some c)) (hn : ((st.vmap (hash c.id)).getD (newFn c)).info.id = c.id)
    (ho : ((st.vmap (hash c.id)).getD (newFn c)).ops = o) (hl : l.isOpen = true) (hc : Plain c.id) (hs : ∀ a ∈ as, a.Scalar) {cfg : Cfg} {inst : InstMode}
    (hk : Kept cfg st.cfg) (hin : st.inst = inst) (h : vfiEnterL sem st as l = .ok ((st', as'), l')) :
    let es := .blank l.depth :: .enter l.depth c.id o :: values l.depth true c.id (formats ((st.vmap (hash c.id)).bind (·.inArgs)) as.length) as as'
    l' = { l with out := l.out ++ text es, depth := (l.depth + 1) % 2 ^ 64 } ∧ Kept cfg st'.cfg ∧ st'.inst = inst ∧ ∀ e ∈ es, e.Clean ∧ e.Just sem cfg inst := by
  intro es
  unfold vfiEnterL at h
  rw [hrd, Outcome.bind_ok] at h
  dsimp only at h
  obtain ⟨n, -, h⟩ := bind_ok_inv h
  obtain ⟨cfg', hcfg, h⟩ := bind_ok_inv h
  obtain ⟨⟨⟨as1, r1⟩, l1⟩, h1, h⟩ := bind_ok_inv h
  simp only [Outcome.pure_eq, Outcome.ok.injEq, Prod.mk.injEq] at h
  obtain ⟨⟨rfl, rfl⟩, rfl⟩ := h
  have hk' : Kept cfg cfg' := by
    split at hcfg
    · exact ⟨(setOps_context hcfg).trans hk.1, (setOps_ok hcfg).2.trans hk.2⟩
    · rw [Outcome.ok.injEq] at hcfg; rw [← hcfg]; exact hk
  rw [hn] at h1
  obtain ⟨e1, c1⟩ := withArgs_text (cfg := cfg) (inst := inst) ⟨hk'.1, fun hm => by
    rw [decide_eq_true_eq, hk'.2, hin] at hm
    exact ⟨hm.2, hm.1⟩⟩ (by rw [print_open, print_open]; exact hl) hc hs h1
  have hr : ((st.vmap (hash c.id)).getD (newFn c)).inArgs = (st.vmap (hash c.id)).bind (·.inArgs) := by
    cases st.vmap (hash c.id) <;> rfl
  have hd : ∀ t, (l.print t).depth = l.depth := fun t => by rw [print_text hl]
  rw [hr, print_text (by rw [print_open]; exact hl), hd] at e1 c1
  refine ⟨?_, hk', hin, ?_⟩
  · rw [e1, print_text hl, opsText_eq, hn, ho]
    show Log.mk _ _ _ = Log.mk _ _ _
    congr 1
    show _ = l.out ++ text (.blank l.depth :: .enter l.depth c.id o :: _)
    rw [text_cons, text_cons]
    unfold Entry.line Entry.body Entry.depth
    simp only [List.append_assoc, List.append_nil]
  · intro e he
    rcases List.mem_cons.1 he with rfl | he
    · exact ⟨trivial, trivial⟩
    · rcases List.mem_cons.1 he with rfl | he
      · exact ⟨hc, trivial⟩
      · exact c1 e he

theorem vfiExit_text {sem : ShiftSem} {st st' : St} {as as' : List Arg} {l l' : Log} {c : Info} {o : Int × Int × Int × Int}
    (hrd : st.stack.rd st.stack.top = .ok (some c)) (hn : ∀ f, st.vmap (hash c.id) = some f → f.info.id = c.id ∧ f.ops = o)
    (hl : l.isOpen = true) (hc : Plain c.id) (hs : ∀ a ∈ as, a.Scalar) {cfg : Cfg} {inst : InstMode}
    (hk : Kept cfg st.cfg) (hin : st.inst = inst) (d : Nat) (hd : (l.depth + (2 ^ 64 - 1)) % 2 ^ 64 = d)
    (h : vfiExitL sem st as l = .ok ((st', as'), l')) :
    let es := .exit d c.id o :: values d false c.id (formats ((st.vmap (hash c.id)).bind (·.outArgs)) as.length) as as' ++ [.blank d]
    l' = { l with out := l.out ++ text es, depth := d } ∧ Kept cfg st'.cfg ∧ st'.inst = inst ∧ ∀ e ∈ es, e.Clean ∧ e.Just sem cfg inst := by
  intro es
  unfold vfiExitL at h
  rw [hrd, Outcome.bind_ok] at h
  dsimp only at h
  obtain ⟨p, -, h⟩ := bind_ok_inv h
  obtain ⟨cfg', hcfg, h⟩ := bind_ok_inv h
  rw [hd] at h
  cases hv : st.vmap (hash c.id) with
  | none => rw [hv] at h; cases h
  | some f =>
    rw [hv] at h
    dsimp only at h
    obtain ⟨⟨⟨as1, r1⟩, l1⟩, h1, h⟩ := bind_ok_inv h
    simp only [Outcome.pure_eq, Outcome.ok.injEq, Prod.mk.injEq] at h
    obtain ⟨⟨rfl, rfl⟩, rfl⟩ := h
    obtain ⟨n1, n2⟩ := hn f hv
    rw [n1] at h1
    have hk' : Kept cfg cfg' := by
      unfold restore at hcfg
      split at hcfg
      · rw [Outcome.ok.injEq] at hcfg; rw [← hcfg]; exact hk
      · split at hcfg
        · split at hcfg
          · exact ⟨(setOps_context hcfg).trans hk.1, (setOps_ok hcfg).2.trans hk.2⟩
          · rw [Outcome.ok.injEq] at hcfg; rw [← hcfg]; exact hk
        · rw [Outcome.ok.injEq] at hcfg; rw [← hcfg]; exact hk
    obtain ⟨e1, c1⟩ := withArgs_text (cfg := cfg) (inst := inst) ⟨hk'.1, fun hm => by
      rw [decide_eq_true_eq, hk'.2, hin] at hm
      exact ⟨hm.2, hm.1⟩⟩ (by rw [print_open]; exact hl) hc hs h1
    have hr : f.outArgs = (st.vmap (hash c.id)).bind (·.outArgs) := by rw [hv]; rfl
    rw [print_text (by exact hl)] at e1 c1
    rw [hr] at e1 c1
    refine ⟨?_, hk', hin, ?_⟩
    · rw [e1, print_text (by exact hl), opsText_eq, n1, n2]
      refine congrArg (Log.mk l.isOpen d) ?_
      show _ = l.out ++ text (.exit d c.id o :: _ ++ [.blank d])
      rw [text_append, text_cons, text_one]
      unfold Entry.line Entry.body Entry.depth
      simp only [List.append_assoc, List.append_nil]
    · intro e he
      rcases List.mem_append.1 he with he | he
      · rcases List.mem_cons.1 he with rfl | he
        · exact ⟨hc, trivial⟩
        · exact c1 e he
      · rw [List.mem_singleton.1 he]; exact ⟨trivial, trivial⟩

/-- How many of the running functions use floating point. -/
def fpDepth (l : List Info) : Nat := (l.filter Info.fp).length

theorem enter_named {C : List Info} {profile : Nat → Option Fn} (hC : NoCollision C) {sem : ShiftSem} {st st' : St} {l : List Info} {c : Info} {as as' : List Arg}
    (hi : Inv profile C st l) (hc : c ∈ C) (h : Named C st.vmap) (e : enterFn sem c as st = .ok (st', as')) : Named C st'.vmap := by
  unfold enterFn at e
  have hf : (st.tab (hash c.id)).getD c = c := by
    rcases ht : st.tab (hash c.id) with _ | i
    · rfl
    · obtain ⟨h1, h2⟩ := hi.tab _ _ ht
      exact hC i h1 c hc h2
  rw [hf] at e
  obtain ⟨s, hs, e⟩ := bind_ok_inv e
  dsimp only at e
  split at e
  · obtain ⟨-, -, -, ⟨fn', e4, -, e5, -⟩, -⟩ := vfiEnter_ok (st := { st with tab := put st.tab (hash c.id) c, stack := s }) (rd_top (push_inv hi.stack hs)) e
    intro k f hk b hb hkb
    rw [e4] at hk
    unfold put at hk
    split at hk
    · next hkk =>
      cases hk
      have hbc : b = c := hC b hb c hc (hkb.trans hkk)
      subst hbc
      rw [e5]
      show ((st.vmap (hash b.id)).getD (newFn b)).info.id = b.id
      cases hv : st.vmap (hash b.id) with
      | none => rfl
      | some g => exact h _ g hv b hb rfl
    · exact h k f hk b hb hkb
  · simp only [Outcome.pure_eq, Outcome.ok.injEq, Prod.mk.injEq] at e
    rw [← e.1]; exact h

theorem exit_named {C : List Info} {profile : Nat → Option Fn} {sem : ShiftSem} {st st' : St} {l : List Info} {c : Info} {as as' : List Arg}
    (hi : Inv profile C st (c :: l)) (h : Named C st.vmap) (e : exitFn sem c as st = .ok (st', as')) : Named C st'.vmap := by
  unfold exitFn at e
  obtain ⟨⟨st1, as1⟩, e0, e⟩ := bind_ok_inv e
  obtain ⟨s, -, e⟩ := bind_ok_inv e
  simp only [Outcome.pure_eq, Outcome.ok.injEq, Prod.mk.injEq] at e
  rw [← e.1]
  show Named C st1.vmap
  split at e0
  · obtain ⟨-, -, -, ⟨fn, fn', f1, f2, -, f4, -⟩, -⟩ := vfiExit_ok (rd_top hi.stack) (rd_parent hi.stack) e0
    intro k f hk b hb hkb
    rw [f2] at hk
    unfold put at hk
    split at hk
    · next hkk => cases hk; rw [f4]; exact h _ fn f1 b hb (hkb.trans hkk)
    · exact h k f hk b hb hkb
  · simp only [Outcome.pure_eq, Outcome.ok.injEq, Prod.mk.injEq] at e0
    rw [← e0.1]; exact h

theorem of_unlogged {α : Type} {x : Outcome (α × Log)} {a : α} {l : Log} (h : x = .ok (a, l)) {y : Outcome α} (hy : unlogged x = y) : y = .ok a := by
  rw [← hy, h]; rfl

theorem run_text {profile : Nat → Option Fn} {C : List Info} (hC : NoCollision C) (hpl : ∀ c ∈ C, Plain c.id) {sem : ShiftSem} {cfg : Cfg} {inst : InstMode} (es : List Ev) :
    ∀ (st : St) (lg : Log) (s' : St × Log) (l : List Info), Inv profile C st l → Named C st.vmap → (∀ c ∈ sites es, c ∈ C) →
      (∀ e ∈ es, ∀ a ∈ e.args, a.Scalar) → (shadow l es).isSome → lg.isOpen = true → lg.depth = fpDepth l → Kept cfg st.cfg → st.inst = inst →
      runL sem (st, lg) es = .ok s' →
      s'.2.out = lg.out ++ text (history sem profile st (fpDepth l) es) ∧ ∀ e ∈ history sem profile st (fpDepth l) es, e.Clean ∧ e.Just sem cfg inst := by
  induction es with
  | nil =>
    intro st lg s' l _ _ _ _ _ _ _ _ _ hr
    simp only [runL, Outcome.ok.injEq] at hr
    rw [← hr]
    exact ⟨by simp [history, text], by simp [history]⟩
  | cons e es ih =>
    intro st lg s' l hi hnm hsub hsc hsh ho hd hk hin hr
    rw [runL] at hr
    obtain ⟨s1, h1, hr⟩ := bind_ok_inv hr
    rcases e with ⟨c, as⟩ | ⟨c, as⟩
    · rw [stepL] at h1
      obtain ⟨⟨⟨st2, as2⟩, l2⟩, h2, h1⟩ := bind_ok_inv h1
      simp only [Outcome.pure_eq, Outcome.ok.injEq] at h1
      subst h1
      have hsa : ∀ a ∈ as, a.Scalar := hsc (.enter c as) (by simp)
      have hp := of_unlogged h2 (enterFn_same sem c as st lg fun _ a ha => (hsa a ha).readable)
      have hc := hsub c (by simp [sites])
      have hi2 := (enter_inv hC hi hc hp).1
      have hnm2 := enter_named hC hi hc hnm hp
      have hlen := hi2.stack.len
      have hrest : ∀ lg2 : Log, lg2 = l2 → lg2.isOpen = true → lg2.depth = fpDepth (c :: l) → Kept cfg st2.cfg → st2.inst = inst → s'.2.out = l2.out ++ text (history sem profile st2 (fpDepth (c :: l)) es) ∧
          ∀ e ∈ history sem profile st2 (fpDepth (c :: l)) es, e.Clean ∧ e.Just sem cfg inst := fun lg2 hlg ho2 hd2 hk2 hin2 => by
        subst hlg
        exact ih st2 lg2 s' (c :: l) hi2 hnm2 (fun d hd => hsub d (by simp [sites, hd])) (fun e he => hsc e (by simp [he])) hsh ho2 hd2 hk2 hin2 hr
      rw [history]
      simp only [hp]
      unfold enterFnL at h2
      have hf : (st.tab (hash c.id)).getD c = c := by
        rcases ht : st.tab (hash c.id) with _ | i
        · rfl
        · obtain ⟨q1, q2⟩ := hi.tab _ _ ht
          exact hC i q1 c hc q2
      rw [hf] at h2
      obtain ⟨s, hs, h2⟩ := bind_ok_inv h2
      dsimp only at h2
      by_cases hfp : c.fp = true
      · rw [if_pos hfp] at h2
        rw [if_pos hfp]
        have hdl : fpDepth (c :: l) = fpDepth l + 1 := by simp [fpDepth, hfp]
        have hlt : fpDepth (c :: l) < 2 ^ 64 := by
          have : fpDepth (c :: l) ≤ (c :: l).length := List.length_filter_le _ _
          omega
        obtain ⟨t1, t3, t4, t2⟩ := vfiEnter_text (st := { st with tab := put st.tab (hash c.id) c, stack := s }) (o := prescribed profile (hash c.id))
          (rd_top (push_inv hi.stack hs)) (by
            show ((st.vmap (hash c.id)).getD (newFn c)).info.id = c.id
            cases hv : st.vmap (hash c.id) with
            | none => rfl
            | some g => exact hnm _ g hv c hc rfl) (getD_ops hi c) ho (hpl c hc) hsa hk hin h2
        rw [hd] at t1 t2
        have hmod : (fpDepth l + 1) % 2 ^ 64 = fpDepth l + 1 := Nat.mod_eq_of_lt (by omega)
        obtain ⟨r1, r2⟩ := hrest l2 rfl (by rw [t1]; exact ho) (by rw [t1, hdl]; exact hmod) t3 t4
        rw [hdl] at r1 r2
        refine ⟨?_, ?_⟩
        · rw [r1, t1]
          show lg.out ++ text _ ++ text _ = _
          rw [List.append_assoc, ← text_append]
        · intro e he
          rcases List.mem_append.1 he with he | he
          · exact t2 e he
          · exact r2 e he
      · rw [if_neg hfp] at h2
        rw [if_neg hfp]
        simp only [Outcome.pure_eq, Outcome.ok.injEq, Prod.mk.injEq] at h2
        have hdl : fpDepth (c :: l) = fpDepth l := by simp [fpDepth, hfp]
        have := hrest l2 rfl (by rw [← h2.2]; exact ho) (by rw [← h2.2, hdl]; exact hd) (by rw [← h2.1.1]; exact hk) (by rw [← h2.1.1]; exact hin)
        rw [hdl, ← h2.2] at this
        exact this
    · rw [stepL] at h1
      obtain ⟨⟨⟨st2, as2⟩, l2⟩, h2, h1⟩ := bind_ok_inv h1
      simp only [Outcome.pure_eq, Outcome.ok.injEq] at h1
      subst h1
      rcases l with _ | ⟨d, l⟩
      · cases hsh
      rw [shadow] at hsh
      split at hsh
      swap
      · cases hsh
      rename_i hcd
      subst hcd
      have hsa : ∀ a ∈ as, a.Scalar := hsc (.exit c as) (by simp)
      have hp := of_unlogged h2 (exitFn_same sem c as st lg fun _ a ha => (hsa a ha).readable)
      have hc := hsub c (by simp [sites])
      have hi2 := (exit_inv hi hp).1
      have hnm2 := exit_named hi hnm hp
      have hlen := hi.stack.len
      have hrest : l2.isOpen = true → l2.depth = fpDepth l → Kept cfg st2.cfg → st2.inst = inst → s'.2.out = l2.out ++ text (history sem profile st2 (fpDepth l) es) ∧
          ∀ e ∈ history sem profile st2 (fpDepth l) es, e.Clean ∧ e.Just sem cfg inst := fun ho2 hd2 hk2 hin2 =>
        ih st2 l2 s' l hi2 hnm2 (fun d hd => hsub d (by simp [sites, hd])) (fun e he => hsc e (by simp [he])) hsh ho2 hd2 hk2 hin2 hr
      rw [history]
      simp only [hp]
      unfold exitFnL at h2
      obtain ⟨⟨⟨st3, as3⟩, l3⟩, h3, h2⟩ := bind_ok_inv h2
      obtain ⟨s, -, h2⟩ := bind_ok_inv h2
      simp only [Outcome.pure_eq, Outcome.ok.injEq, Prod.mk.injEq] at h2
      obtain ⟨⟨rfl, rfl⟩, rfl⟩ := h2
      by_cases hfp : c.fp = true
      · rw [if_pos hfp] at h3
        rw [if_pos hfp]
        have hdl : fpDepth (c :: l) = fpDepth l + 1 := by simp [fpDepth, hfp]
        have hlt : fpDepth (c :: l) ≤ (c :: l).length := List.length_filter_le _ _
        obtain ⟨t1, t3, t4, t2⟩ := vfiExit_text (rd_top hi.stack) (fun f hf => ⟨hnm _ f hf c hc rfl, hi.ops _ f hf⟩) ho (hpl c hc) hsa hk hin (fpDepth l)
          (by rw [hd, hdl]; omega) h3
        obtain ⟨r1, r2⟩ := hrest (by rw [t1]; exact ho) (by rw [t1]) t3 t4
        rw [hdl, Nat.add_sub_cancel]
        refine ⟨?_, ?_⟩
        · rw [r1, t1]
          show lg.out ++ text _ ++ text _ = _
          rw [List.append_assoc, ← text_append, List.append_assoc]
          rfl
        · intro e he
          rcases List.mem_append.1 he with he | he
          · exact t2 e (by simp only [List.mem_append]; exact .inl he)
          · rcases List.mem_cons.1 he with rfl | he
            · exact ⟨trivial, trivial⟩
            · exact r2 e he
      · rw [if_neg hfp] at h3
        rw [if_neg hfp]
        simp only [Outcome.pure_eq, Outcome.ok.injEq, Prod.mk.injEq] at h3
        have hdl : fpDepth (c :: l) = fpDepth l := by simp [fpDepth, hfp]
        rw [hdl]
        have := hrest (by rw [← h3.2]; exact ho) (by rw [← h3.2, ← hdl]; exact hd) (by rw [← h3.1.1]; exact hk) (by rw [← h3.1.1]; exact hin)
        rw [← h3.2] at this
        exact this

/-! ## C108 -/

/-- **C108, reading.**  The log of a program whose arguments have scalar types and whose names have neither tabs nor newlines can be read line by line,
and says what happens: the calls and returns of the functions that use floating point, nested as deep as these functions are, with the precision that
the profile prescribes for their operations, and for each argument what it was, what it became, and the format of its record.

Partial: with the log on the hooks read the memory behind pointers up to the declared size, and the lines of pointers cannot be read
(`C108_pointer_wrong`, `C108_null_wrong`); the format of a line is the one before the call, (0, 0) the first time (`C108_first_wrong`). -/
theorem C108_read_partial (sem : ShiftSem) (profile : Nat → Option Fn) (cfg : Cfg) (m : InstMode) (es : List Ev) (st : St)
    (hC : NoCollision (sites es)) (hn : Named (sites es) profile) (hp : ∀ c ∈ sites es, Plain c.id) (hs : ∀ e ∈ es, ∀ a ∈ e.args, a.Scalar)
    (hsh : (shadow [] es).isSome) (hr : run sem (init profile cfg m) es = .ok st) :
    ∃ l, runL sem (init profile cfg m, logInit true) es = .ok (st, l) ∧
      readLog l.out = some ((history sem profile (init profile cfg m) 0 es).map Entry.seen) := by
  have h := C108_transparent sem es (init profile cfg m) (logInit true) fun _ e he a ha => (hs e he a ha).readable
  rw [hr] at h
  cases hl : runL sem (init profile cfg m, logInit true) es with
  | exit => rw [hl] at h; cases h
  | ub => rw [hl] at h; cases h
  | ok s =>
    rw [hl] at h
    obtain ⟨st', l⟩ := s
    have hst : st' = st := by simpa [unlogged] using h
    subst hst
    obtain ⟨h1, h2⟩ := run_text hC hp (cfg := cfg) (inst := m) es _ _ _ _ (init_inv profile (sites es) cfg m) hn (fun _ h => h) hs hsh rfl rfl
      ⟨rfl, rfl⟩ rfl hl
    exact ⟨l, rfl, by rw [h1]; exact readLog_text _ fun e he => (h2 e he).1⟩

/-- A line about a call (`true`) or a return. -/
def Entry.call? : Entry → Option (Bool × Nat × Id × (Int × Int × Int × Int))
  | .enter d id o => some (true, d, id, o)
  | .exit d id o => some (false, d, id, o)
  | _ => none

/-- The calls and returns of a program, in order. -/
def trace (profile : Nat → Option Fn) : Nat → List Ev → List (Bool × Nat × Id × (Int × Int × Int × Int))
  | _, [] => []
  | d, .enter c _ :: es =>
    if c.fp then (true, d, c.id, prescribed profile (hash c.id)) :: trace profile (d + 1) es else trace profile d es
  | d, .exit c _ :: es =>
    if c.fp then (false, d - 1, c.id, prescribed profile (hash c.id)) :: trace profile (d - 1) es else trace profile d es

theorem values_calls (d : Nat) (inp : Bool) (fid : Id) : ∀ (ds : List ArgData) (as bs : List Arg),
    ((values d inp fid ds as bs).map Entry.seen).filterMap Entry.call? = []
  | [], _, _ => rfl
  | _ :: _, [], _ => rfl
  | _ :: _, _ :: _, [] => rfl
  | e :: ds, a :: as, b :: bs => by
    rw [values, List.map_cons, List.filterMap_cons_none rfl]
    exact values_calls d inp fid ds as bs

theorem history_calls (sem : ShiftSem) (profile : Nat → Option Fn) : ∀ (es : List Ev) (st st' : St) (d : Nat), run sem st es = .ok st' →
    ((history sem profile st d es).map Entry.seen).filterMap Entry.call? = trace profile d es
  | [], _, _, _, _ => rfl
  | .enter c as :: es, st, st', d, h => by
    rw [run, step] at h
    obtain ⟨s1, h1, h⟩ := bind_ok_inv h
    obtain ⟨⟨s2, as2⟩, h2, h1⟩ := bind_ok_inv h1
    simp only [Outcome.pure_eq, Outcome.ok.injEq] at h1
    subst h1
    rw [history, trace]
    simp only [h2]
    split
    · simp only [List.map_append, List.filterMap_append, List.map_cons, List.filterMap_cons, Entry.seen, Entry.call?, values_calls,
        history_calls sem profile es _ _ _ h, List.cons_append, List.nil_append]
    · exact history_calls sem profile es _ _ _ h
  | .exit c as :: es, st, st', d, h => by
    rw [run, step] at h
    obtain ⟨s1, h1, h⟩ := bind_ok_inv h
    obtain ⟨⟨s2, as2⟩, h2, h1⟩ := bind_ok_inv h1
    simp only [Outcome.pure_eq, Outcome.ok.injEq] at h1
    subst h1
    rw [history, trace]
    simp only [h2]
    split
    · simp only [List.map_append, List.filterMap_append, List.map_cons, List.filterMap_cons, Entry.seen, Entry.call?, values_calls,
        history_calls sem profile es _ _ _ h, List.cons_append, List.nil_append]
    · exact history_calls sem profile es _ _ _ h

/-- **C108, calls.**  What the log says about calls follows from the program alone: each call and each return of a function that uses floating point, in
order, at the depth of the calls that are open, with the precision the profile prescribes. -/
theorem C108_calls_partial (sem : ShiftSem) (profile : Nat → Option Fn) (cfg : Cfg) (m : InstMode) (es : List Ev) (st : St)
    (hC : NoCollision (sites es)) (hn : Named (sites es) profile) (hp : ∀ c ∈ sites es, Plain c.id) (hs : ∀ e ∈ es, ∀ a ∈ e.args, a.Scalar)
    (hsh : (shadow [] es).isSome) (hr : run sem (init profile cfg m) es = .ok st) :
    ∃ l ls, runL sem (init profile cfg m, logInit true) es = .ok (st, l) ∧ readLog l.out = some ls ∧ ls.filterMap Entry.call? = trace profile 0 es := by
  obtain ⟨l, h1, h2⟩ := C108_read_partial sem profile cfg m es st hC hn hp hs hsh hr
  exact ⟨l, _, h1, h2, history_calls sem profile es _ _ _ hr⟩

/-- **C108, values.**  In the log an argument stays what it is, or is rounded to the format of its line, as the configuration asks. -/
theorem C108_values_partial (sem : ShiftSem) (profile : Nat → Option Fn) (cfg : Cfg) (m : InstMode) (es : List Ev) (st : St)
    (hC : NoCollision (sites es)) (hn : Named (sites es) profile) (hp : ∀ c ∈ sites es, Plain c.id) (hs : ∀ e ∈ es, ∀ a ∈ e.args, a.Scalar)
    (hsh : (shadow [] es).isSome) (hr : run sem (init profile cfg m) es = .ok st) :
    ∃ l ls, runL sem (init profile cfg m, logInit true) es = .ok (st, l) ∧ readLog l.out = some ls ∧
      ∀ d inp fid dbl arg v w man e, Entry.value d inp fid dbl arg v w man e ∈ ls →
        w = v ∨ ((m = .all ∨ m = .arg) ∧ (cfg.mode = .full ∨ cfg.mode = if inp then .ib else .ob) ∧
          ∃ x y, Vprec.roundBinary sem (if dbl then b64 else b32) (if dbl then 64 else 32) x inp cfg.ctx e.toNat man = .ok y ∧
            v = seen (if dbl then x else fconv b32 b64 x) ∧ w = seen (if dbl then y else fconv b32 b64 y)) := by
  obtain ⟨l, h1, h2⟩ := C108_read_partial sem profile cfg m es st hC hn hp hs hsh hr
  refine ⟨l, _, h1, h2, ?_⟩
  have hj := (run_text hC hp (cfg := cfg) (inst := m) es _ _ _ _ (init_inv profile (sites es) cfg m) hn (fun _ h => h) hs hsh rfl rfl ⟨rfl, rfl⟩ rfl h1).2
  intro d inp fid dbl arg v w man e hm
  obtain ⟨x, hx, he⟩ := List.mem_map.1 hm
  have := (hj x hx).2
  cases x with
  | blank => cases he
  | enter => cases he
  | exit => cases he
  | value d' inp' fid' dbl' arg' v' w' m' e' =>
    simp only [Entry.seen, Entry.value.injEq] at he
    obtain ⟨rfl, rfl, rfl, rfl, rfl, rfl, rfl, rfl, rfl⟩ := he
    rcases this with rfl | ⟨a, b, x, y, h, rfl, rfl⟩
    · exact .inl rfl
    · exact .inr ⟨a, b, x, y, h, rfl, rfl⟩

/-! ## Examples -/

/-- 1.1 -/
def oneTenth : Bits := ⟨false, 1023, 450359962737050⟩

/-- A function with one argument, called twice within another. -/
def exEvents : List Ev :=
  let f := site "f" true
  let g := site "g" true
  let x : Arg := ⟨.double, "x".toList, 1, some [oneTenth]⟩
  [.enter f [], .enter g [x], .exit g [], .enter g [x], .exit g [], .exit f []]

theorem exEvents_run : (do let s ← runL .strict (init exProfile Vprec.Config.init .all, logInit true) exEvents; return s.2.out) = .ok
    ("\nenter in f\t10\t11\t23\t8\n" ++
      "\t\n\tenter in g\t52\t11\t23\t8\n\t - input\tg\tdouble\tx\t0x1.199999999999ap+0\t->\t\t0x1.199999999999ap+0\t(0, 0)\n\texit of g\t52\t11\t23\t8\n\t\n" ++
      "\t\n\tenter in g\t52\t11\t23\t8\n\t - input\tg\tdouble\tx\t0x1.199999999999ap+0\t->\t\t0x1.199999999999ap+0\t(52, 11)\n\texit of g\t52\t11\t23\t8\n\t\n" ++
      "exit of f\t10\t11\t23\t8\n\n").toList := by decide +kernel

/-- The hypotheses of the theorems hold for the program. -/
example : (∀ c ∈ sites exEvents, ∀ d ∈ sites exEvents, hash c.id = hash d.id → c = d) ∧ (shadow [] exEvents).isSome ∧
    (∀ c ∈ sites exEvents, '\t' ∉ c.id ∧ '\n' ∉ c.id) := by decide +kernel

example : ∀ e ∈ exEvents, ∀ a ∈ e.args, a.Scalar := by
  have h : (⟨.double, "x".toList, 1, some [oneTenth]⟩ : Arg).Scalar := ⟨rfl, by unfold Plain; decide, _, _, rfl, by constructor <;> decide⟩
  intro e he a ha
  simp only [exEvents, List.mem_cons, List.not_mem_nil, or_false] at he
  rcases he with rfl | rfl | rfl | rfl | rfl | rfl <;> simp only [Ev.args, List.mem_cons, List.not_mem_nil, or_false] at ha
  · rw [ha]; exact h
  · rw [ha]; exact h

example : (trace exProfile 0 exEvents).map (fun t => (t.1, t.2.1, t.2.2.1)) = [(true, 0, "f".toList), (true, 1, "g".toList), (false, 1, "g".toList),
    (true, 1, "g".toList), (false, 1, "g".toList), (false, 0, "f".toList)] ∧ (trace exProfile 0 exEvents).map (·.2.2.2.1) = [10, 52, 52, 52, 52, 10] := by
  decide +kernel

/-- A profile that wants 4 bits of the argument of `g`. -/
def roundProfile : Nat → Option Fn := fun k =>
  if k = hash "g".toList then some { newFn (site "g" true) with inArgs := some [⟨"x".toList, 1, 0, 0, 5, 4⟩] } else none

/-- The argument of `g` is rounded to 4 bits: 1.1 becomes 1.125. -/
example : (do let s ← runL .strict (init roundProfile { Vprec.Config.init with mode := .full } .all, logInit true) (exEvents.take 2)
              return (readLog s.2.out).map (List.drop 3) : Outcome (Option (List Entry))) =
    .ok (some [.enter 1 "g".toList (52, 11, 23, 8), .value 1 true "g".toList true "x".toList oneTenth ⟨false, 1023, 2 ^ 49⟩ 4 5]) := by decide +kernel

example : readLine "\t - output\tg\tfloat\ty\t-0x1p-1\t->\t\t-0x1p-1\t(23,8)".toList =
    some (.value 1 false "g".toList false "y".toList ⟨true, 1022, 0⟩ ⟨true, 1022, 0⟩ 23 8) := by decide +kernel

/-! ## What the log gets wrong -/

/-- **C108, negation: the first call.**  The record of an argument is made by the first call, but the line of that call shows the format before it was made:
no bits and no exponent. -/
theorem C108_first_wrong : ∃ (es : List Ev) (l : Log) (st : St) (ls : List Entry) (v : Bits) (f : Fn) (d : ArgData),
    runL .strict (init (fun _ => none) Vprec.Config.init .all, logInit true) es = .ok (st, l) ∧ readLog l.out = some ls ∧
    .value 0 true "g".toList true "x".toList v v 0 0 ∈ ls ∧ st.vmap (hash "g".toList) = some f ∧ f.inArgs = some [d] ∧ d.manLen = 52 ∧ d.expLen = 11 := by
  have h : (do let s ← runL .strict (init (fun _ => none) Vprec.Config.init .all, logInit true)
                [.enter (site "g" true) [⟨.double, "x".toList, 1, some [oneTenth]⟩]]
               return (readLog s.2.out, (s.1.vmap (hash "g".toList)).map (·.inArgs)) : Outcome (Option (List Entry) × Option (Option (List ArgData)))) =
      .ok (some [.blank 0, .enter 0 "g".toList (52, 11, 23, 8), .value 0 true "g".toList true "x".toList oneTenth oneTenth 0 0],
        some (some [⟨"x".toList, 1, 1, 2, 11, 52⟩])) := by decide +kernel
  obtain ⟨⟨st, l⟩, h1, h2⟩ := bind_ok_inv h
  simp only [Outcome.pure_eq, Outcome.ok.injEq, Prod.mk.injEq] at h2
  obtain ⟨h2, h3⟩ := h2
  obtain ⟨f, hf, h3⟩ := Option.map_eq_some_iff.1 h3
  exact ⟨_, l, st, _, oneTenth, f, _, h1, h2, by simp, hf, h3, rfl, rfl⟩

/-- A call and a return with a pointer to numbers in binary32. -/
def ptrEvents (n : Nat) (mem : Option (List Bits)) : List Ev :=
  [.enter (site "f" true) [⟨.floatPtr, "p".toList, n, mem⟩], .exit (site "f" true) [⟨.floatPtr, "p".toList, n, mem⟩]]

/-- 1.1 in binary32. -/
def tenth32 : Bits := ⟨false, 127, 838861⟩

/-- The log of a run, in lines. -/
def logLines (profile : Nat → Option Fn) (cfg : Cfg) (es : List Ev) : Outcome (List (List Char)) := do
  let s ← runL .strict (init profile cfg .all, logInit true) es
  return Ieee.splitOn '\n' s.2.out

/-- **C108, negation: null pointers.**  The line of a null pointer is not ended: the return is on the line of the argument. -/
theorem C108_null_wrong : logLines (fun _ => none) Vprec.Config.init (ptrEvents 1 none) = .ok (["", "enter in f\t52\t11\t23\t8",
    " - input\tf[0]\tfloat_ptr\tp\tNULL\t->\texit of f\t52\t11\t23\t8", " - output\tf[0]\tfloat_ptr\tp\tNULL\t->\t", ""].map String.toList) := by
  decide +kernel

/-- A profile that wants 4 bits of the argument of `f`. -/
def ptrProfile : Nat → Option Fn := fun k =>
  if k = hash "f".toList then some { newFn (site "f" true) with inArgs := some [⟨"p".toList, 3, 0, 0, 5, 4⟩] } else none

/-- **C108, negation: pointers.**  The first element has its beginning printed twice at the call; the second element is shown with a format of 4 bits though it
is never rounded.  At the return the beginnings come three and two times. -/
theorem C108_pointer_wrong : logLines ptrProfile { Vprec.Config.init with mode := .ib } (ptrEvents 2 (some [tenth32, tenth32])) = .ok (["",
    "enter in f\t52\t11\t23\t8",
    " - input\tf[0]\tfloat_ptr\tp\t0x1.19999ap+0\t->\t - input\tf[0]\tfloat_ptr\tp\t0x1.19999ap+0\t->\t0x1.2p+0\t(4, 5)",
    " - input\tf[1]\tfloat_ptr\tp\t0x1.19999ap+0\t->\t0x1.19999ap+0\t(4, 5)",
    "exit of f\t52\t11\t23\t8",
    " - output\tf[0]\tfloat_ptr\tp\t0x1.19999ap+0\t->\t - output\tf[0]\tfloat_ptr\tp\t0x1.19999ap+0\t->\t - output\tf[0]\tfloat_ptr\tp\t0x1.19999ap+0\t->\t0x1.19999ap+0\t(0,0)",
    " - output\tf[1]\tfloat_ptr\tp\t0x1.19999ap+0\t->\t - output\tf[1]\tfloat_ptr\tp\t0x1.19999ap+0\t->\t0x1.19999ap+0\t(0,0)",
    "", ""].map String.toList) := by decide +kernel

/-- **C108, negation: the log reads more.**  A pointer declared with two elements to memory with one: the hooks only use the first element, but the log reads
the second. -/
theorem C108_beyond_wrong : (∃ st, run .strict (init (fun _ => none) Vprec.Config.init .all) (ptrEvents 2 (some [tenth32])) = .ok st) ∧
    logLines (fun _ => none) Vprec.Config.init (ptrEvents 2 (some [tenth32])) = .ub := by
  refine ⟨?_, by decide +kernel⟩
  have h : (do let s ← run .strict (init (fun _ => none) Vprec.Config.init .all) (ptrEvents 2 (some [tenth32])); return s.inst) = .ok .all := by decide +kernel
  obtain ⟨st, h, -⟩ := bind_ok_inv h
  exact ⟨st, h⟩

end Verif.Vfi
