import Verif.Props.Async
import Verif.Props.Cost
import Verif.Spec.Fetch

/-! # C105 What the store is asked for -/

namespace Verif
open Spec Chain

namespace Async

variable {D : Deps} {nowTime : Option UInt64}

/-- The next step reads the store under this CID. -/
def Reads (D : Deps) (t : Task) (cid : Cid) : Prop :=
  ∃ u done s ss, t.ctl = .proofs u done (s :: ss) ∧ Cid.parse D s = some cid ∧ cid.codec = Cid.rawCodec

theorem reads_of_asks {t : Task} {cid : Cid} (h : Asks D nowTime t cid) : Reads D t cid := by
  obtain ⟨a, b, hc, hr, hne⟩ := h
  obtain ⟨ctl, stack, p⟩ := t
  cases ctl with
  | token s => exact absurd rfl hne
  | expiry u => exact absurd (by simp only [step, hc]) hne
  | early u => exact absurd (by simp only [step, hc]) hne
  | issuer u => exact absurd rfl hne
  | verify u key => exact absurd rfl hne
  | ret r => exact absurd rfl hne
  | proofs u done rest =>
    cases rest with
    | nil => exact absurd rfl hne
    | cons s ss =>
      refine ⟨u, done, s, ss, rfl, ?_⟩
      refine Classical.byContradiction fun hno => hne ?_
      have hf : fetch D a s = fetch D b s := by
        unfold fetch
        cases hp : Cid.parse D s with
        | none => rfl
        | some c =>
          show (if c.codec ≠ Cid.rawCodec then _ else _) = (if c.codec ≠ Cid.rawCodec then _ else _)
          by_cases hcodec : c.codec = Cid.rawCodec
          · have : c ≠ cid := fun e => hno ⟨by rw [hp, e], e ▸ hcodec⟩
            rw [if_neg (fun h => h hcodec), if_neg (fun h => h hcodec), hr c this]
          · rw [if_pos hcodec, if_pos hcodec]
      simp only [step, hf]

theorem asks_of_reads {t : Task} {cid : Cid} (h : Reads D t cid) : Asks D nowTime t cid := by
  obtain ⟨u, done, s, ss, ht, hp, hcodec⟩ := h
  refine ⟨⟨0, fun _ => .ok none⟩, ⟨0, fun c => if c = cid then err .storeIo else .ok none⟩, rfl, fun c hc => (if_neg hc).symm, fun he => ?_⟩
  have h1 : fetch D ⟨0, fun _ => .ok none⟩ s = (true, err .noToken) := by
    unfold fetch
    rw [hp]
    show (if cid.codec ≠ Cid.rawCodec then _ else _) = _
    rw [if_neg (fun h => h hcodec)]
    rfl
  have h2 : fetch D ⟨0, fun c => if c = cid then err .storeIo else .ok none⟩ s = (true, err .storeIo) := by
    unfold fetch
    rw [hp]
    show (if cid.codec ≠ Cid.rawCodec then _ else _) = _
    rw [if_neg (fun h => h hcodec)]
    simp only [if_pos]
  obtain ⟨ctl, stack, p⟩ := t
  cases ht
  simp only [step, h1, h2, err] at he
  have := congrArg (fun x => x.2.ctl) he
  cases this

variable {ctors : BMap Bytes KeyCtor} {G : Nat → Snap} {token : String}

theorem CheckedAt.mono {a b : Nat → Prop} (hab : ∀ j, a j → b j) {u : Ucan} (h : CheckedAt nowTime ctors G a u) : CheckedAt nowTime ctors G b u where
  unexpired e he := by
    rcases h.unexpired e he with h | ⟨h, j, hj, hle⟩
    · exact Or.inl h
    · exact Or.inr ⟨h, j, hab j hj, hle⟩
  active m hm := by
    obtain ⟨j, hj, hle⟩ := h.active m hm
    exact ⟨j, hab j hj, hle⟩
  signed := h.signed

theorem LedTo.mono {a b : Nat → Prop} (hab : ∀ j, a j → b j) {u : Ucan} (h : LedTo D nowTime ctors G a token u) : LedTo D nowTime ctors G b token u := by
  induction h with
  | root h => exact .root h
  | proof _ hv hs hp hc hj hr ht ih => exact .proof ih (CheckedAt.mono hab hv) hs hp hc (hab _ hj) hr ht

/-- What holds of a future between two steps. -/
structure Inv (D : Deps) (nowTime : Option UInt64) (ctors : BMap Bytes KeyCtor) (G : Nat → Snap) (at_ : Nat → Prop) (token : String) (t : Task) : Prop where
  coherent : Coherent t.parser
  same : t.parser.ctors = ctors
  stack : ∀ f ∈ t.stack, LedTo D nowTime ctors G at_ token f.ucan ∧ CheckedAt nowTime ctors G at_ f.ucan ∧ ∀ s ∈ f.rest, s ∈ f.ucan.payload.prf.getD []
  ctl : match t.ctl with
    | .token s => ∀ u, Ucan.fromStr D s = .ok u → LedTo D nowTime ctors G at_ token u
    | .expiry u => LedTo D nowTime ctors G at_ token u
    | .early u => LedTo D nowTime ctors G at_ token u ∧
        ∀ e, u.payload.exp = some e → (∃ n, nowTime = some n ∧ n ≤ e) ∨ (nowTime = none ∧ ∃ j, at_ j ∧ (G j).clock ≤ e)
    | .issuer u => LedTo D nowTime ctors G at_ token u ∧
        (∀ e, u.payload.exp = some e → (∃ n, nowTime = some n ∧ n ≤ e) ∨ (nowTime = none ∧ ∃ j, at_ j ∧ (G j).clock ≤ e)) ∧
        ∀ b, u.payload.nbf = some b → ∃ j, at_ j ∧ b ≤ (G j).clock
    | .verify u key => LedTo D nowTime ctors G at_ token u ∧
        (∀ e, u.payload.exp = some e → (∃ n, nowTime = some n ∧ n ≤ e) ∨ (nowTime = none ∧ ∃ j, at_ j ∧ (G j).clock ≤ e)) ∧
        (∀ b, u.payload.nbf = some b → ∃ j, at_ j ∧ b ≤ (G j).clock) ∧ Denotes ctors u.payload.iss key
    | .proofs u _ rest => LedTo D nowTime ctors G at_ token u ∧ CheckedAt nowTime ctors G at_ u ∧ ∀ s ∈ rest, s ∈ u.payload.prf.getD []
    | .ret _ => True

theorem Inv.mono {a b : Nat → Prop} (hab : ∀ j, a j → b j) {t : Task} (h : Inv D nowTime ctors G a token t) : Inv D nowTime ctors G b token t := by
  have he : ∀ u : Ucan, (∀ e, u.payload.exp = some e → (∃ n, nowTime = some n ∧ n ≤ e) ∨ (nowTime = none ∧ ∃ j, a j ∧ (G j).clock ≤ e)) →
      ∀ e, u.payload.exp = some e → (∃ n, nowTime = some n ∧ n ≤ e) ∨ (nowTime = none ∧ ∃ j, b j ∧ (G j).clock ≤ e) := by
    intro u hu e h
    rcases hu e h with h | ⟨h, j, hj, hle⟩
    · exact Or.inl h
    · exact Or.inr ⟨h, j, hab j hj, hle⟩
  have hn : ∀ u : Ucan, (∀ m, u.payload.nbf = some m → ∃ j, a j ∧ m ≤ (G j).clock) → ∀ m, u.payload.nbf = some m → ∃ j, b j ∧ m ≤ (G j).clock := by
    intro u hu m h
    obtain ⟨j, hj, hle⟩ := hu m h
    exact ⟨j, hab j hj, hle⟩
  refine ⟨h.coherent, h.same, fun f hf => ?_, ?_⟩
  · obtain ⟨h1, h2, h3⟩ := h.stack f hf
    exact ⟨LedTo.mono hab h1, CheckedAt.mono hab h2, h3⟩
  · have := h.ctl
    obtain ⟨ctl, stack, p⟩ := t
    cases ctl with
    | token s => exact fun u hu => LedTo.mono hab (this u hu)
    | expiry u => exact LedTo.mono hab this
    | early u => exact ⟨LedTo.mono hab this.1, he u this.2⟩
    | issuer u => exact ⟨LedTo.mono hab this.1, he u this.2.1, hn u this.2.2⟩
    | verify u key => exact ⟨LedTo.mono hab this.1, he u this.2.1, hn u this.2.2.1, this.2.2.2⟩
    | proofs u done rest => exact ⟨LedTo.mono hab this.1, CheckedAt.mono hab this.2.1, this.2.2⟩
    | ret r => trivial

theorem fetch_ok {snap : Snap} {s tok : String} {b : Bool} (h : fetch D snap s = (b, .ok tok)) :
    ∃ cid, Cid.parse D s = some cid ∧ cid.codec = Cid.rawCodec ∧ snap.read cid = .ok (some (.bytes (strBytes tok))) := by
  unfold fetch at h
  cases hp : Cid.parse D s with
  | none => rw [hp] at h; cases h
  | some cid =>
    rw [hp] at h
    change (if cid.codec ≠ Cid.rawCodec then _ else _) = _ at h
    by_cases hcodec : cid.codec = Cid.rawCodec
    · rw [if_neg (fun h => h hcodec)] at h
      refine ⟨cid, rfl, hcodec, ?_⟩
      cases hr : snap.read cid with
      | error e => rw [hr] at h; cases h
      | ok r =>
        rw [hr] at h
        have h := (Prod.mk.inj h).2
        cases r with
        | none => cases h
        | some v =>
          cases v with
          | bytes x =>
            change orErr .utf8 (bytesStr? x) = _ at h
            cases hx : bytesStr? x with
            | none => rw [hx] at h; cases h
            | some y =>
              rw [hx] at h
              cases h
              rw [bytesStr?_eq_some.1 hx]
          | _ => cases h
    · rw [if_pos hcodec] at h
      cases h

theorem Inv.step {at_ : Nat → Prop} {T : Nat} (hT : at_ T) {t : Task} (h : Inv D nowTime ctors G at_ token t) :
    Inv D nowTime ctors G at_ token (Async.step D nowTime (G T) t).2 := by
  obtain ⟨ctl, stack, p⟩ := t
  obtain ⟨hco, hct, hst, hctl⟩ := h
  cases ctl with
  | token s =>
    simp only [Async.step]
    split
    · exact ⟨hco, hct, hst, hctl _ ‹_›⟩
    · exact ⟨hco, hct, hst, trivial⟩
  | expiry u =>
    simp only [Async.step]
    split
    · rename_i he
      exact ⟨hco, hct, hst, hctl, fun e h => by rw [he] at h; cases h⟩
    · rename_i exp he
      split
      · rename_i n
        by_cases hlt : exp < n
        · rw [if_pos hlt]; exact ⟨hco, hct, hst, trivial⟩
        · rw [if_neg hlt]
          exact ⟨hco, hct, hst, hctl, fun e h => by rw [he] at h; cases h; exact Or.inl ⟨n, rfl, UInt64.not_lt.1 hlt⟩⟩
      · by_cases hlt : exp < (G T).clock
        · rw [if_pos hlt]; exact ⟨hco, hct, hst, trivial⟩
        · rw [if_neg hlt]
          exact ⟨hco, hct, hst, hctl, fun e h => by rw [he] at h; cases h; exact Or.inr ⟨rfl, T, hT, UInt64.not_lt.1 hlt⟩⟩
  | early u =>
    simp only [Async.step]
    split
    · rename_i he
      exact ⟨hco, hct, hst, hctl.1, hctl.2, fun e h => by rw [he] at h; cases h⟩
    · rename_i nbf he
      by_cases hlt : nbf > (G T).clock
      · rw [if_pos hlt]; exact ⟨hco, hct, hst, trivial⟩
      · rw [if_neg hlt]
        exact ⟨hco, hct, hst, hctl.1, hctl.2, fun e h => by rw [he] at h; cases h; exact ⟨T, hT, UInt64.not_lt.1 hlt⟩⟩
  | issuer u =>
    simp only [Async.step]
    have hk := DidParser.parse_ok_iff hco u.payload.iss
    have hco' := DidParser.parse_coherent hco u.payload.iss
    have hct' := DidParser.parse_ctors p u.payload.iss
    split
    · rename_i key q hq
      rw [hq] at hk hco' hct'
      exact ⟨hco', hct'.trans hct, hst, hctl.1, hctl.2.1, hctl.2.2, hct ▸ (hk key).1 rfl⟩
    · rename_i e q hq
      rw [hq] at hco' hct'
      exact ⟨hco', hct'.trans hct, hst, trivial⟩
  | verify u key =>
    simp only [Async.step]
    split
    · rename_i hv
      exact ⟨hco, hct, hst, hctl.1, ⟨hctl.2.1, hctl.2.2.1, key, hctl.2.2.2, hv⟩, fun s hs => hs⟩
    · exact ⟨hco, hct, hst, trivial⟩
  | proofs u done rest =>
    cases rest with
    | nil => simp only [Async.step]; split <;> exact ⟨hco, hct, hst, trivial⟩
    | cons s ss =>
      simp only [Async.step]
      split
      · rename_i b tok hf
        obtain ⟨cid, hp, hc, hr⟩ := fetch_ok hf
        refine ⟨hco, hct, fun f hf => ?_, fun v hv => .proof hctl.1 hctl.2.1 (hctl.2.2 s List.mem_cons_self) hp hc hT hr hv⟩
        rcases List.mem_cons.1 hf with rfl | hf
        · exact ⟨hctl.1, hctl.2.1, fun x hx => hctl.2.2 x (List.mem_cons_of_mem _ hx)⟩
        · exact hst f hf
      · exact ⟨hco, hct, hst, trivial⟩
  | ret r =>
    cases stack with
    | nil => exact ⟨hco, hct, hst, trivial⟩
    | cons f fs =>
      have hfs : ∀ g ∈ fs, _ := fun g hg => hst g (List.mem_cons_of_mem _ hg)
      cases r with
      | error e => exact ⟨hco, hct, hfs, trivial⟩
      | ok c =>
        simp only [Async.step]
        split
        · exact ⟨hco, hct, hfs, hst f List.mem_cons_self⟩
        · exact ⟨hco, hct, hfs, trivial⟩

theorem inv_runAll (nowTime : Nat → Option UInt64) (sched : Nat → Option Nat) (tasks : Nat → Task) (i : Nat) (p : DidParser) (hp : Coherent p)
    (hi : tasks i = start token p) : ∀ T, Inv D (nowTime i) p.ctors G (fun j => j < T ∧ sched j = some i) token (runAll D nowTime G sched tasks T i)
  | 0 => by
    show Inv _ _ _ _ _ _ (tasks i)
    rw [hi]
    exact ⟨hp, rfl, (fun f hf => by cases hf), fun u hu => .root hu⟩
  | T + 1 => by
    have ih := inv_runAll nowTime sched tasks i p hp hi T
    have ih' := ih.mono (b := fun j => j < T + 1 ∧ sched j = some i) fun j hj => ⟨by omega, hj.2⟩
    show Inv _ _ _ _ _ _ (if sched T = some i then _ else _)
    split
    · exact ih'.step ⟨Nat.lt_succ_self T, ‹_›⟩
    · exact ih'

end Async

open Async

/-- C105: whatever else runs, and whatever clock and store answer, a validation only asks the store for what a UCAN lists as a proof that the token led it to, and
only once this UCAN has been checked: its signature, expiry and activation. -/
theorem C105_justified_partial (D : Deps) (nowTime : Nat → Option UInt64) (G : Nat → Snap) (sched : Nat → Option Nat) (tasks : Nat → Task) (i : Nat) (token : String)
    (p : DidParser) (hp : Coherent p) (hi : tasks i = start token p) (T : Nat) (cid : Cid) (h : Asks D (nowTime i) (runAll D nowTime G sched tasks T i) cid) :
    ∃ u s, LedTo D (nowTime i) p.ctors G (fun j => j < T ∧ sched j = some i) token u ∧
      CheckedAt (nowTime i) p.ctors G (fun j => j < T ∧ sched j = some i) u ∧ s ∈ u.payload.prf.getD [] ∧ Cid.parse D s = some cid ∧ cid.codec = 0x55 := by
  obtain ⟨u, done, s, ss, hctl, hs, hc⟩ := reads_of_asks h
  have hinv := (inv_runAll (D := D) (G := G) nowTime sched tasks i p hp hi T).ctl
  rw [hctl] at hinv
  exact ⟨u, s, hinv.1, hinv.2.1, hinv.2.2 s List.mem_cons_self, hs, hc⟩

/-- C105: so for a text that is no token, or for one that is not valid by itself, the store is not asked for anything. -/
theorem C105_refused (D : Deps) (nowTime : Nat → Option UInt64) (G : Nat → Snap) (sched : Nat → Option Nat) (tasks : Nat → Task) (i : Nat) (token : String)
    (p : DidParser) (hp : Coherent p) (hi : tasks i = start token p) (T : Nat)
    (hbad : ∀ u, Ucan.fromStr D token = .ok u → ¬ CheckedAt (nowTime i) p.ctors G (fun j => j < T ∧ sched j = some i) u) (cid : Cid) :
    ¬ Asks D (nowTime i) (runAll D nowTime G sched tasks T i) cid := by
  intro h
  obtain ⟨u, s, hled, hch, _⟩ := C105_justified_partial D nowTime G sched tasks i token p hp hi T cid h
  have key : ∀ u, LedTo D (nowTime i) p.ctors G (fun j => j < T ∧ sched j = some i) token u →
      CheckedAt (nowTime i) p.ctors G (fun j => j < T ∧ sched j = some i) u → False := by
    intro u hu
    induction hu with
    | root h => exact hbad _ h
    | proof _ hv _ _ _ _ _ _ ih => exact fun _ => ih hv
  exact key u hled hch

/-- C105: nor is it asked once a fault has been found anywhere. -/
theorem C105_quiet (D : Deps) (nowTime : Nat → Option UInt64) (G : Nat → Snap) (sched : Nat → Option Nat) (tasks : Nat → Task) (i T : Nat) (e : Fail)
    (h : (runAll D nowTime G sched tasks T i).ctl = .ret (.error e)) (T' : Nat) (hT : T ≤ T') (cid : Cid) :
    ¬ Asks D (nowTime i) (runAll D nowTime G sched tasks T' i) cid := by
  have key : (runAll D nowTime G sched tasks T' i).ctl = .ret (.error e) := by
    induction hT with
    | refl => exact h
    | step hle ih =>
      rename_i T2
      show (if sched T2 = some i then _ else _ : Task).ctl = _
      split
      · generalize runAll D nowTime G sched tasks T2 i = t at ih
        obtain ⟨ctl, stack, p⟩ := t
        cases ih
        cases stack <;> rfl
      · exact ih
  intro ha
  obtain ⟨u, done, s, ss, hctl, _⟩ := reads_of_asks ha
  rw [key] at hctl
  cases hctl

/-- C105, conversely: once a token has been checked, the store is asked for the first of its proofs. -/
theorem C105_asked (D : Deps) (E : Env) (nowTime : Option UInt64) (token : String) (u : Ucan) (n : Nat) (p : DidParser) (w1 : World)
    (ht : Ucan.fromStr D token = .ok u) (hv : u.validate E nowTime ⟨n, p⟩ = (.ok (), w1)) (s : String) (ss : List String) (cid : Cid)
    (hs : u.payload.prf = some (s :: ss)) (hp : Cid.parse D s = some cid) (hc : cid.codec = 0x55) :
    ∃ k, Asks D nowTime (runIn D E nowTime k (n, start token p)).2 cid := by
  obtain ⟨k, hk⟩ := validate_steps (D := D) (E := E) (nowTime := nowTime) u [] n p
  have h1 : runIn D E nowTime 1 (n, start token p) = (n, ⟨.expiry u, [], p⟩) := by
    simp only [runIn, stepIn, start, step, ht]
    rfl
  refine ⟨1 + k, asks_of_reads ⟨u, [], s, ss, ?_, hp, hc⟩⟩
  rw [runIn_add, h1, hk, hv]
  show Ctl.proofs u [] (u.payload.prf.getD []) = _
  rw [hs]
  rfl

/-- A run by itself is one among others. -/
theorem Async.runAll_alone (D : Deps) (E : Env) (nowTime : Option UInt64) (s : Nat × Task) (T : Nat) :
    runAll D (fun _ => nowTime) (fun k => snapOf E (runIn D E nowTime k s).1) (fun _ => some 0) (fun _ => s.2) T 0 = (runIn D E nowTime T s).2 := by
  induction T with
  | zero => rfl
  | succ T ih =>
    rw [runIn_add]
    simp only [runAll, if_true, ih]
    rfl

/-- C105 (violated): the link between a token and its proof, which the two texts show, is only looked at once everything below the proof has been fetched
and checked. A proof that is addressed to someone else is followed like any other, and costs what its own validation costs. -/
theorem C105_unlinked (D : Deps) (E : Env) (nowTime : Option UInt64) (fuel : Nat) (u : Ucan) (s : String) (rest : List String) (cid : Cid) (tok : String) (c : Chain)
    (w w1 w2 w3 : World) (hv : u.validate E nowTime w = (.ok (), w1)) (hp : u.payload.prf = some (s :: rest)) (hs : Cid.parse D s = some cid)
    (ht : Store.requireToken E cid w1 = (.ok tok, w2)) (hc : ofToken D E nowTime fuel tok w2 = (.ok c, w3)) (ha : c.ucan.payload.aud ≠ u.payload.iss) :
    fromUcan D E nowTime fuel u w = (err .audience, w3) ∧ w3.tick = w2.tick + accesses nowTime c := by
  refine ⟨?_, C68_accesses D E nowTime fuel tok w2 c w3 hc⟩
  unfold fromUcan fromUcanWith
  rw [M.bind_of_ok hv]
  refine M.bind_of_error ?_
  show proofsLoop D E _ u (u.payload.prf.getD []) w1 = _
  rw [hp]
  show proofsLoop D E _ u (s :: rest) w1 = _
  unfold proofsLoop
  rw [hs]
  refine (M.bind_of_ok (a := cid) (w1 := w1) rfl).trans ?_
  rw [M.bind_of_ok ht, M.bind_of_ok hc]
  refine M.bind_of_error ?_
  show (validateLink c.ucan u, w3) = _
  unfold validateLink
  rw [if_neg (show ¬ c.ucan.audience = u.issuer from ha)]

namespace Ex

/-- Someone else cites what was not addressed to them. -/
def stray (D : Deps) (n : Nat) : Ucan := ucan D 2 (did 1) (some 20) (some 5) (some [(numCid n).toStr]) (caps "mailto:a@b" "msg/send")

theorem stray_valid (D : Deps) (n : Nat) (m : Store.Dags) : ((stray D n).validate (still m 7) none world).1 = .ok () := by
  have hv := valid D 2 (did 1) 20 5 (some [(numCid n).toStr]) (caps "mailto:a@b" "msg/send") 7 (by decide) (by decide)
  exact (C12_validate_iff _ _ none _ world_coherent).2 ⟨hv.unexpired, hv.active, hv.authentic⟩

end Ex

/-- There are runs in which the store is asked. -/
example (D : Deps) : ∃ (G : Nat → Snap) (token : String) (p : DidParser) (T : Nat) (cid : Cid), Coherent p ∧
    Asks D none (runAll D (fun _ => none) G (fun _ => some 0) (fun _ => start token p) T 0) cid := by
  have h := Ex.stray_valid D 0 fun _ => none
  obtain ⟨k, hk⟩ := C105_asked D (still (fun _ => none) 7) none _ (Ex.stray D 0) Ex.world.tick Ex.world.parser _
    (Ex.parses D 2 (Ex.did 1) (some 20) (some 5) (some [(Ex.numCid 0).toStr]) "mailto:a@b" "msg/send") (Prod.ext h rfl) _ [] (Ex.numCid 0) rfl
    (Cid.parse_toStr D _ rfl (by simp [Ex.numCid])) rfl
  exact ⟨_, _, Ex.world.parser, k, _, Ex.world_coherent, by rw [← runAll_alone] at hk; exact hk⟩

/-- C105: the full claim, that nothing is fetched on behalf of proofs that do not belong to the token, is refuted. There are tokens with a single proof, addressed to somebody else,
that are refused for this reason after `2^(n+1)` accesses and more, with `n + 1` tokens in the store. -/
theorem C105_violated (D : Deps) (n : Nat) (hn : n < 2 ^ 32) : ∃ (E : Env) (tokens : List Bytes) (token : String) (u v : Ucan) (s : String) (w w' : World) (fuel : Nat),
    tokens.length = n + 1 ∧ (∀ i cid b, E.read i cid = .ok (some (.bytes b)) → b ∈ tokens) ∧ Ucan.fromStr D token = .ok u ∧
    u.payload.prf = some [s] ∧ Resolves D (Holds E) s v ∧ v.payload.aud ≠ u.payload.iss ∧
    ofToken D E none fuel token w = (err .audience, w') ∧ w.tick + 2 ^ (n + 1) ≤ w'.tick := by
  have hpar := Ex.parses D 2 (Ex.did 1) (some 20) (some 5) (some [(Ex.numCid n).toStr]) "mailto:a@b" "msg/send"
  have hget := Ex.twiceDags_get D (n := n + 1) (k := n) (by omega) (Nat.lt_succ_self n)
  have hcid : Cid.parse D (Ex.numCid n).toStr = some (Ex.numCid n) := Cid.parse_toStr D _ rfl (by simp [Ex.numCid])
  have hv := Ex.stray_valid D n (Ex.twiceDags D (n + 1))
  obtain ⟨w1, hv⟩ : ∃ w1, (Ex.stray D n).validate (still (Ex.twiceDags D (n + 1)) 7) none Ex.world = (.ok (), w1) := ⟨_, by rw [← hv]⟩
  have hk1 : Keeps Ex.world w1 := by
    obtain ⟨h1, h2, h3⟩ := validate_world Ex.world_coherent hv
    exact ⟨h1, h2, h3⟩
  have hr := requireToken_of_read (E := still (Ex.twiceDags D (n + 1)) 7) (c := Ex.numCid n) (w := w1) rfl (memRead_bytes.2 hget)
  have hk2 := requireToken_keeps hk1.coherent hr
  have hs := Ex.twiceChain_sound D (n + 1) (by omega) n (by omega)
  have hc := C24_depth D (still (Ex.twiceDags D (n + 1)) 7) none 7 (fun _ => rfl) (fun _ _ _ => rfl) ((Ex.twice D n).encode D) { w1 with tick := w1.tick + 1 } hk2.coherent
    (Ex.twiceChain D n) (by rw [Ex.twiceChain_ucan]; exact Ex.twice_parses D n) (by rw [(hk1.trans hk2).ctors]; exact hs) _ (Nat.le_refl _)
  obtain ⟨w3, hc⟩ : ∃ w3, ofToken D (still (Ex.twiceDags D (n + 1)) 7) none (levels (Ex.twiceChain D n)) ((Ex.twice D n).encode D) { w1 with tick := w1.tick + 1 } =
      (.ok (Ex.twiceChain D n), w3) := ⟨_, by rw [← hc]⟩
  have haud : (Ex.twiceChain D n).ucan.payload.aud ≠ (Ex.stray D n).payload.iss := by
    rw [Ex.twiceChain_ucan, (Ex.twice_bounds D n).1]
    show Ex.did 1 ≠ Ex.did 2
    decide +kernel
  obtain ⟨h1, h2⟩ := C105_unlinked D _ none _ (Ex.stray D n) _ [] _ _ _ _ _ _ _ hv rfl hcid hr hc haud
  refine ⟨still (Ex.twiceDags D (n + 1)) 7, (List.range (n + 1)).map fun k => strBytes ((Ex.twice D k).encode D), (Ex.stray D n).encode D, Ex.stray D n, Ex.twice D n, _, Ex.world, w3, levels (Ex.twiceChain D n) + 1,
    by simp, ?_, hpar, rfl, ⟨Ex.numCid n, (Ex.twice D n).encode D, hcid, rfl, memRead_bytes.2 hget, Ex.twice_parses D n⟩, by rw [← Ex.twiceChain_ucan]; exact haud, ?_, ?_⟩
  · intro i cid b hb
    have := memRead_bytes.1 hb
    unfold Ex.twiceDags at this
    obtain ⟨k, hk, rfl⟩ := Option.map_eq_some_iff.1 this
    exact List.mem_map.2 ⟨k, List.mem_of_find?_eq_some hk, rfl⟩
  · show (M.lift (Ucan.fromStr D _) >>= _) Ex.world = _
    rw [M.bind_of_ok (a := Ex.stray D n) (w1 := Ex.world) (by rw [M.lift_apply]; exact congrArg (·, Ex.world) hpar)]
    exact h1
  · have h3 := (Chain.accesses_bounds none (Ex.twiceChain D n)).1
    have h4 := Ex.twiceChain_nodes D n
    have h5 := (hk1.trans hk2).tick
    have h6 := Chain.validate_tick hv
    have h7 : clockReads none (Ex.stray D n) = 2 := rfl
    have h8 : ({ w1 with tick := w1.tick + 1 } : World).tick = w1.tick + 1 := rfl
    omega

end Verif
