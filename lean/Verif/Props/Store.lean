import Verif.Props.ChainExamples
import Verif.Spec.Store

/-! # Properties C48-C50 and C56: stores and CIDs -/

namespace Verif
open Spec Store

/-! ## The heap refines the log -/

theorem Store.run_append (D : Deps) (l l' : List Op) : ∀ s : Heap, (run D s (l ++ l')).2 = (run D (run D s l).2 l').2 := by
  induction l with
  | nil => intro s; rfl
  | cons op l ih => intro s; exact ih _

/-- State after a history given latest first. -/
def Store.after (D : Deps) (l : List Op) : Heap := (run D empty l.reverse).2

theorem Store.after_cons (D : Deps) (op : Op) (l : List Op) : after D (op :: l) = (step D (after D l) op).2 := by
  unfold after
  rw [List.reverse_cons, run_append]
  rfl

/-- What the log says and what the heap holds agree. -/
structure Store.Refines (D : Deps) (l : List Op) (s : Heap) : Prop where
  next : s.next = creates l
  handles : s.handles = families l
  bound : ∀ (h g : Nat), (families l)[h]? = some g → g < creates l
  dags : ∀ g c, s.dags g c = stored D g c l

theorem Spec.stored_fresh {D : Deps} {l : List Op} (hb : ∀ (h g : Nat), (families l)[h]? = some g → g < creates l) : ∀ {g : Nat} {c : Cid},
    creates l ≤ g → (∀ l', l' <:+ l → ∀ (h g : Nat), (families l')[h]? = some g → g < creates l') → stored D g c l = none := by
  induction l with
  | nil => intros; rfl
  | cons op l ih =>
    intro g c hg hall
    have hl := hall l (List.suffix_cons _ _)
    have hsub : ∀ l', l' <:+ l → ∀ (h g : Nat), (families l')[h]? = some g → g < creates l' := fun l' h' => hall l' (h'.trans (List.suffix_cons _ _))
    cases op with
    | create => exact ih hl (by simp only [creates] at hg; omega) hsub
    | clone h => exact ih hl hg hsub
    | read h c' => exact ih hl hg hsub
    | write h v =>
      cases v with
      | bytes b =>
        show (if _ then _ else _) = _
        rw [if_neg]
        · exact ih hl hg hsub
        · rintro ⟨hf, _⟩
          have := hl _ _ hf
          simp only [creates] at hg
          omega
      | _ => exact ih hl hg hsub

theorem Spec.families_bound : ∀ (l : List Op) (h g : Nat), (families l)[h]? = some g → g < creates l
  | [], h, g, hf => by simp [families] at hf
  | .create :: l, h, g, hf => by
    simp only [families, List.getElem?_append] at hf
    split at hf
    · have := families_bound l h g hf
      simp only [creates]; omega
    · have : g = creates l := by
        cases hk : h - (families l).length with
        | zero => rw [hk] at hf; simpa using hf.symm
        | succ n => rw [hk] at hf; simp at hf
      simp only [creates]; omega
  | .clone k :: l, h, g, hf => by
    simp only [families] at hf
    split at hf
    · rename_i g' hg'
      rw [List.getElem?_append] at hf
      split at hf
      · exact families_bound l h g hf
      · have : g = g' := by
          cases hk : h - (families l).length with
          | zero => rw [hk] at hf; simpa using hf.symm
          | succ n => rw [hk] at hf; simp at hf
        subst this
        exact families_bound l k g hg'
    · exact families_bound l h g hf
  | .write _ _ :: l, h, g, hf => families_bound l h g hf
  | .read _ _ :: l, h, g, hf => families_bound l h g hf

theorem Store.refines (D : Deps) (l : List Op) : Refines D l (after D l) := by
  induction l with
  | nil => exact ⟨rfl, rfl, families_bound [], fun _ _ => rfl⟩
  | cons op l ih =>
    rw [after_cons]
    refine ⟨?_, ?_, families_bound _, ?_⟩
    · cases op with
      | create => show _ + 1 = _ + 1; rw [ih.next]
      | clone h => simp only [step]; split <;> exact ih.next
      | write h v =>
        simp only [step]
        split
        · exact ih.next
        · exact ih.next
      | read h c => simp only [step]; split <;> exact ih.next
    · cases op with
      | create => show _ ++ [_] = _ ++ [_]; rw [ih.handles, ih.next]
      | clone h =>
        simp only [step, families, ih.handles]
        split
        · rename_i i hi
          simp only [hi]
        · rename_i hi
          simp only [hi, ih.handles]
      | write h v =>
        simp only [step]
        split
        · exact ih.handles
        · exact ih.handles
      | read h c => simp only [step]; split <;> exact ih.handles
    · intro g c
      cases op with
      | create =>
        show (if g = _ then fun _ => none else _) c = _
        split
        · rename_i e
          have : stored D g c l = none := stored_fresh (families_bound l) (by rw [e, ih.next]; exact Nat.le_refl _) (fun l' _ => families_bound l')
          exact this.symm
        · exact ih.dags g c
      | clone h => simp only [step]; split <;> exact ih.dags g c
      | read h c' => simp only [step]; split <;> exact ih.dags g c
      | write h v =>
        simp only [step, ih.handles]
        cases hh : (families l)[h]? with
        | none =>
          simp only
          rw [ih.dags]
          cases v with
          | bytes b => show _ = if _ then _ else _; rw [if_neg (by rw [hh]; simp)]
          | _ => rfl
        | some i =>
          simp only
          cases v with
          | bytes b =>
            simp only [memWrite]
            show _ = if _ then _ else _
            rw [hh]
            by_cases hgi : g = i
            · subst hgi
              simp only [if_true, true_and]
              by_cases hc : c = blockCid D b
              · rw [if_pos hc, if_pos hc.symm]
              · rw [if_neg hc, if_neg (fun e => hc e.symm)]; exact ih.dags g c
            · rw [if_neg hgi, if_neg (by rintro ⟨e, _⟩; exact hgi (Option.some.inj e).symm)]; exact ih.dags g c
          | _ =>
            simp only [memWrite]
            split
            · rename_i e; rw [← e]; exact ih.dags g c
            · exact ih.dags g c

/-! ## C48 Memory store keeps every token -/

/-- C48: after every history, a read through any handle returns what the log of its store says, and changes nothing. -/
theorem C48_read_log (D : Deps) (l : List Op) (h g : Nat) (hb : Belongs l h g) (c : Cid) :
    step D (after D l) (.read h c) = (.value (.ok ((stored D g c l).map .bytes)), after D l) := by
  have hr := refines D l
  simp only [step, hr.handles, show (families l)[h]? = some g from hb, memRead, hr.dags]

/-- C48: a write through any handle returns the CID of the bytes. -/
theorem C48_write_cid (D : Deps) (l : List Op) (h g : Nat) (hb : Belongs l h g) (b : Bytes) :
    (step D (after D l) (.write h (.bytes b))).1 = .cid (.ok (blockCid D b)) := by
  have hr := refines D l
  simp only [step, hr.handles, show (families l)[h]? = some g from hb, memWrite]

theorem Spec.stored_written {D : Deps} {g : Nat} {c : Cid} {b : Bytes} : ∀ {l : List Op}, stored D g c l = some b → Written g b l ∧ blockCid D b = c
  | [], h => by cases h
  | .create :: l, h => ⟨.earlier _ (stored_written (l := l) h).1, (stored_written (l := l) h).2⟩
  | .clone k :: l, h => ⟨.earlier _ (stored_written (l := l) h).1, (stored_written (l := l) h).2⟩
  | .read k c' :: l, h => ⟨.earlier _ (stored_written (l := l) h).1, (stored_written (l := l) h).2⟩
  | .write k v :: l, h => by
    cases v with
    | bytes b' =>
      simp only [stored] at h
      split at h
      · rename_i hk
        cases h
        exact ⟨.here k hk.1, hk.2⟩
      · exact ⟨.earlier _ (stored_written h).1, (stored_written h).2⟩
    | _ => exact ⟨.earlier _ (stored_written (l := l) h).1, (stored_written (l := l) h).2⟩

theorem Spec.written_stored {D : Deps} {g : Nat} {b : Bytes} {l : List Op} (h : Written g b l) : ∃ b', stored D g (blockCid D b) l = some b' := by
  induction h with
  | here k hk => exact ⟨b, by show (if _ then _ else _) = _; rw [if_pos ⟨hk, rfl⟩]⟩
  | earlier op _ ih =>
    obtain ⟨b', hb'⟩ := ih
    cases op with
    | create => exact ⟨b', hb'⟩
    | clone k => exact ⟨b', hb'⟩
    | read k c => exact ⟨b', hb'⟩
    | write k v =>
      cases v with
      | bytes b'' =>
        simp only [stored]
        split
        · exact ⟨b'', rfl⟩
        · exact ⟨b', hb'⟩
      | _ => exact ⟨b', hb'⟩

/-- C48: whatever was written to a store, through whichever handle, at whatever time, is what every handle of the store reads under the CID that
the write returned, if the hash does not collide on the bytes written. -/
theorem C48_kept (D : Deps) (l : List Op) (g : Nat) (hn : NoCollision D g l) (b : Bytes) (hw : Written g b l) (h : Nat) (hb : Belongs l h g) :
    (step D (after D l) (.read h (blockCid D b))).1 = .value (.ok (some (.bytes b))) := by
  rw [C48_read_log D l h g hb]
  obtain ⟨b', hb'⟩ := written_stored (D := D) hw
  obtain ⟨hw', e⟩ := stored_written hb'
  rw [hb', hn b' b hw' hw e]
  rfl

/-- C48: nothing else is ever read. -/
theorem C48_only_written (D : Deps) (l : List Op) (h g : Nat) (hb : Belongs l h g) (c : Cid) (v : Ipld)
    (hr : (step D (after D l) (.read h c)).1 = .value (.ok (some v))) : ∃ b, v = .bytes b ∧ Written g b l ∧ c = blockCid D b := by
  rw [C48_read_log D l h g hb] at hr
  cases hs : stored D g c l with
  | none => rw [hs] at hr; cases hr
  | some b =>
    rw [hs] at hr
    cases hr
    obtain ⟨h1, h2⟩ := stored_written hs
    exact ⟨b, rfl, h1, h2.symm⟩

/-- C48: writing the same bytes again changes nothing that any handle can observe. -/
theorem C48_rewrite (D : Deps) (l : List Op) (g : Nat) (hn : NoCollision D g l) (b : Bytes) (hw : Written g b l) (k : Nat) (hk : Belongs l k g)
    (h g' : Nat) (hb : Belongs l h g') (c : Cid) :
    (step D (after D (.write k (.bytes b) :: l)) (.read h c)).1 = (step D (after D l) (.read h c)).1 := by
  rw [C48_read_log D l h g' hb, C48_read_log D (.write k (.bytes b) :: l) h g' hb]
  show Out.value (.ok (Option.map _ (if _ then _ else _))) = _
  split
  · rename_i e
    obtain ⟨e1, rfl⟩ := e
    have : g = g' := by
      have : some g = some g' := (show (families l)[k]? = some g from hk).symm.trans e1
      exact Option.some.inj this
    subst this
    obtain ⟨b', hb'⟩ := written_stored (D := D) hw
    obtain ⟨hw', e⟩ := stored_written hb'
    rw [hb', hn b' b hw' hw e]
  · rfl

/-- C48: writes to another store are not seen. -/
theorem C48_isolated (D : Deps) (l : List Op) (k g h g' : Nat) (hk : Belongs l k g) (hb : Belongs l h g') (hne : g ≠ g') (v : Ipld) (c : Cid) :
    (step D (after D (.write k v :: l)) (.read h c)).1 = (step D (after D l) (.read h c)).1 := by
  rw [C48_read_log D l h g' hb, C48_read_log D (.write k v :: l) h g' hb]
  cases v with
  | bytes b =>
    show Out.value (.ok (Option.map _ (if _ then _ else _))) = _
    rw [if_neg]
    rintro ⟨e, _⟩
    exact hne (Option.some.inj ((show (families l)[k]? = some g from hk).symm.trans e))
  | _ => rfl

/-- Beside C48: two handles on one store and one on another; a digest that does not collide on the bytes at hand. -/
def exLog : List Op := [.write 2 (.bytes [1]), .clone 0, .create, .write 0 (.bytes [2]), .create]

example (D : Deps) (hD : D.digest Cid.blake3 [1] ≠ D.digest Cid.blake3 [2]) :
    NoCollision D 0 exLog ∧
    Written 0 [2] exLog ∧
    Belongs exLog 2 0 ∧
    Belongs exLog 1 1 := by
  refine ⟨?_, .earlier _ (.earlier _ (.earlier _ (.here 0 rfl))), rfl, rfl⟩
  have hw : ∀ b, Written 0 b exLog → b = [1] ∨ b = [2] := by
    intro b h
    cases h with
    | here k _ => exact Or.inl rfl
    | earlier _ h =>
      cases h with
      | earlier _ h =>
        cases h with
        | earlier _ h =>
          cases h with
          | here k _ => exact Or.inr rfl
          | earlier _ h =>
            cases h with
            | earlier _ h => cases h
  intro b b' h h' e
  have e : D.digest Cid.blake3 b = D.digest Cid.blake3 b' := congrArg Cid.digest e
  rcases hw b h with rfl | rfl <;> rcases hw b' h' with rfl | rfl
  · rfl
  · exact absurd e hD
  · exact absurd e.symm hD
  · rfl

/-! ## C49 Reading tokens -/

/-- C49: a token is returned exactly for a raw CID under which the store holds the bytes of its text; never an empty answer. -/
theorem C49_read_iff (E : Env) (c : Cid) (w : World) (r : Option String) :
    (readToken E c w).1 = .ok r ↔ c.codec = Cid.rawCodec ∧ ∃ s, r = some s ∧ E.read w.tick c = .ok (some (.bytes (strBytes s))) := by
  unfold readToken
  split
  · rename_i h
    constructor
    · intro h'; cases h'
    · rintro ⟨h', _⟩; exact absurd h' h
  · rename_i h
    have h : c.codec = Cid.rawCodec := Decidable.not_not.1 h
    simp only [h, true_and]
    cases hr : E.read w.tick c with
    | error e =>
      have : E.readM c w = (.error e, { w with tick := w.tick + 1 }) := by unfold Env.readM; rw [hr]
      rw [M.bind_of_error this]
      simp
    | ok v =>
      have : E.readM c w = (.ok v, { w with tick := w.tick + 1 }) := by unfold Env.readM; rw [hr]
      rw [M.bind_of_ok this]
      cases ht : tokenOf v with
      | error e =>
        have : M.lift (α := String) (.error e) { w with tick := w.tick + 1 } = (.error e, { w with tick := w.tick + 1 }) := rfl
        rw [M.bind_of_error this]
        constructor
        · intro h'; cases h'
        · rintro ⟨s, _, hs⟩
          injection hs with hs
          subst hs
          simp only [tokenOf, bytesStr?_strBytes] at ht
          cases ht
      | ok s =>
        have : M.lift (.ok s) { w with tick := w.tick + 1 } = (.ok s, { w with tick := w.tick + 1 }) := rfl
        rw [M.bind_of_ok this]
        constructor
        · intro h'
          injection h' with h'
          refine ⟨s, h'.symm, ?_⟩
          unfold tokenOf at ht
          split at ht
          · rename_i b
            rw [orErr_eq_ok] at ht
            rw [bytesStr?_eq_some.1 ht]
          · cases ht
        · rintro ⟨s', rfl, hs⟩
          injection hs with hs
          subst hs
          simp only [tokenOf, bytesStr?_strBytes] at ht
          injection ht with ht
          subst ht
          rfl

/-- C49: the memory store returns exactly the token last written, or an error value. -/
theorem C49_memory (D : Deps) (l : List Op) (g : Nat) (E : Env) (w : World) (hE : ∀ c, E.read w.tick c = memRead ((after D l).dags g) c) (c : Cid) :
    (∃ s b, stored D g c l = some b ∧ b = strBytes s ∧ c.codec = Cid.rawCodec ∧ (readToken E c w).1 = .ok (some s)) ∨
    ∃ e, (readToken E c w).1 = .error (.err e) := by
  have hr : E.read w.tick c = .ok ((stored D g c l).map .bytes) := by rw [hE, memRead, (refines D l).dags]
  by_cases hc : c.codec = Cid.rawCodec
  · have hm : E.readM c w = (.ok ((stored D g c l).map .bytes), { w with tick := w.tick + 1 }) := by unfold Env.readM; rw [hr]
    have hu : readToken E c w = ((E.readM c) >>= fun r => M.lift (tokenOf r) >>= fun s => pure (some s)) w := by
      unfold readToken
      rw [if_neg (fun h => h hc)]
    rw [hu, M.bind_of_ok hm]
    cases hs : stored D g c l with
    | none => exact Or.inr ⟨.noToken, rfl⟩
    | some b =>
      cases hb : bytesStr? b with
      | none =>
        right
        refine ⟨.utf8, ?_⟩
        have : M.lift (tokenOf (some (.bytes b))) { w with tick := w.tick + 1 } = (err .utf8, { w with tick := w.tick + 1 }) := by
          simp only [tokenOf, hb, orErr]; rfl
        exact congrArg Prod.fst (M.bind_of_error this)
      | some s =>
        left
        refine ⟨s, b, rfl, (bytesStr?_eq_some.1 hb).symm, hc, ?_⟩
        have : M.lift (tokenOf (some (.bytes b))) { w with tick := w.tick + 1 } = (.ok s, { w with tick := w.tick + 1 }) := by
          simp only [tokenOf, hb, orErr]; rfl
        exact congrArg Prod.fst (M.bind_of_ok this)
  · right
    refine ⟨.wrongCodec, ?_⟩
    unfold readToken
    rw [if_pos hc]
    rfl

/-- Beside C49: a store that holds a token under a raw CID. -/
example (c : Cid) (hc : c.codec = Cid.rawCodec) (w : World) :
    (readToken (still (fun c' => if c' = c then some (strBytes "a.b.c") else none) 7) c w).1 = .ok (some "a.b.c") := by
  rw [C49_read_iff]
  refine ⟨hc, _, rfl, ?_⟩
  show memRead (fun c' => if c' = c then _ else _) c = _
  simp only [memRead, if_true]
  rfl

/-! ## C50 Stored tokens match their CIDs -/

/-- C50: in every reachable memory store, what is stored under a CID hashes to it. -/
theorem C50_content (D : Deps) (l : List Op) (g : Nat) (c : Cid) (b : Bytes) (h : (after D l).dags g c = some b) : c = blockCid D b := by
  rw [(refines D l).dags] at h
  exact (stored_written h).2.symm

/-- At each reading the store is in the state left by some history of operations through any handles. -/
def Spec.Served (D : Deps) (E : Env) (g : Nat) (l : Nat → List Op) : Prop := ∀ i c, E.read i c = memRead ((after D (l i)).dags g) c

theorem Store.served_read {D : Deps} {E : Env} {g : Nat} {l : Nat → List Op} (h : Served D E g l) {i : Nat} {c : Cid} {b : Bytes}
    (hr : E.read i c = .ok (some (.bytes b))) : c = blockCid D b ∧ Written g b (l i) := by
  rw [h, Chain.memRead_bytes, (refines D (l i)).dags] at hr
  exact ⟨(stored_written hr).2.symm, (stored_written hr).1⟩

/-- C50: in a chain built over a memory store, whatever other handles do meanwhile, each proof is the content of a token that hashes to the
CID in the proof list, and that was written to the store. -/
theorem C50_chain {D : Deps} {E : Env} {g : Nat} {l : Nat → List Op} (hE : Served D E g l) {nowTime : Option UInt64} {w w' : World} {c : Chain}
    (hc : Coherent w.parser) (h : Built D E nowTime w w' c) (d : Chain) (hd : Sub d c) (k : Nat) (s : String) (e : Chain)
    (hs : (d.ucan.payload.prf.getD [])[k]? = some s) (he : d.proofs[k]? = some e) :
    ∃ token i, Cid.parse D s = some (blockCid D (strBytes token)) ∧ Ucan.fromStr D token = .ok e.ucan ∧ Written g (strBytes token) (l i) := by
  obtain ⟨cid, token, h1, _, ⟨i, _, _, h3⟩, h4⟩ := (C23_mirrors hc h d hd).2 k s e hs he
  obtain ⟨rfl, hw⟩ := served_read hE h3
  exact ⟨token, i, h1, h4, hw⟩

/-! ## C61 A token determines its chain -/

/-- C61: two chains with the same root built over any two memory stores, at any times, with any keys, are equal, if the hash
does not collide on the bytes written to the stores. -/
theorem C61_determined {D : Deps} {E E' : Env} {g g' : Nat} {l l' : Nat → List Op} (hE : Served D E g l) (hE' : Served D E' g' l')
    (hn : ∀ b b', ((∃ i, Written g b (l i)) ∨ ∃ i, Written g' b (l' i)) → ((∃ i, Written g b' (l i)) ∨ ∃ i, Written g' b' (l' i)) →
      blockCid D b = blockCid D b' → b = b')
    {nowTime nowTime' : Option UInt64} {w v w' v' : World} {c c' : Chain} (hc : Coherent w.parser) (hc' : Coherent v.parser)
    (h : Built D E nowTime w w' c) (h' : Built D E' nowTime' v v' c') (hu : c.ucan = c'.ucan) : c = c' := by
  let F : Cid → Bytes → Prop := fun cid b => cid = blockCid D b ∧ ((∃ i, Written g b (l i)) ∨ ∃ i, Written g' b (l' i))
  have hF : Chain.Functional F := by
    rintro cid b b' ⟨rfl, h1⟩ ⟨h2, h3⟩
    exact hn b b' h1 h3 h2
  refine Chain.Sound.unique (D := D) (V := fun _ => True) hF c c' hu ?_ ?_
  · refine Chain.Sound.mono (fun _ _ => trivial) ?_ c (Chain.built_sound hc h)
    rintro cid b ⟨i, _, _, hr⟩
    exact ⟨(served_read hE hr).1, Or.inl ⟨i, (served_read hE hr).2⟩⟩
  · refine Chain.Sound.mono (fun _ _ => trivial) ?_ c' (Chain.built_sound hc' h')
    rintro cid b ⟨i, _, _, hr⟩
    exact ⟨(served_read hE' hr).1, Or.inr ⟨i, (served_read hE' hr).2⟩⟩

/-! ## C62 Stores filled bottom-up -/

/-- Every token was written after the tokens its proof list names. -/
def Spec.BottomUp (D : Deps) (g : Nat) : List Op → Prop
  | [] => True
  | .write h (.bytes b) :: l =>
    (Belongs l h g → ∀ t u s cid, b = strBytes t → Ucan.fromStr D t = .ok u → s ∈ u.payload.prf.getD [] → Cid.parse D s = some cid →
      ∃ b', Written g b' l ∧ blockCid D b' = cid) ∧ BottomUp D g l
  | _ :: l => BottomUp D g l

theorem Spec.Written.suffix {g : Nat} {b : Bytes} {l L : List Op} (h : Written g b l) (hs : l <:+ L) : Written g b L := by
  obtain ⟨p, rfl⟩ := hs
  induction p with
  | nil => exact h
  | cons op p ih => exact .earlier op ih

theorem Store.bottomUp_acc {D : Deps} {E : Env} {g : Nat} {L : List Op} {l : Nat → List Op} (hE : Served D E g l) (hl : ∀ i, l i <:+ L)
    (hn : NoCollision D g L) : ∀ (p : List Op), p <:+ L → BottomUp D g p → ∀ t u, Written g (strBytes t) p → Ucan.fromStr D t = .ok u →
      Acc (Chain.Refers D E) u
  | [], _, _, t, u, hw, _ => by cases hw
  | op :: p, hp, hb, t, u, hw, ht => by
    have hp' : p <:+ L := (List.suffix_cons op p).trans hp
    cases hw with
    | earlier _ hw =>
      refine bottomUp_acc hE hl hn p hp' ?_ t u hw ht
      cases op with
      | write h v =>
        cases v with
        | bytes b => exact hb.2
        | _ => exact hb
      | _ => exact hb
    | here h hbel =>
      refine ⟨_, ?_⟩
      rintro v ⟨s, hs, cid, tok, h1, _, ⟨i, h3⟩, h4⟩
      obtain ⟨rfl, hwi⟩ := served_read hE h3
      obtain ⟨b', hb', e⟩ := hb.1 hbel t u s _ rfl ht hs h1
      have := hn _ _ (hb'.suffix hp') (hwi.suffix (hl i)) e
      subst this
      exact bottomUp_acc hE hl hn p hp' hb.2 tok v hb' h4

/-- C62: over a memory store filled bottom-up, without hash collisions, building a chain from any token terminates, even while
further tokens are being written. -/
theorem C62_terminates (D : Deps) (E : Env) (g : Nat) (L : List Op) (l : Nat → List Op) (hE : Served D E g l) (hl : ∀ i, l i <:+ L)
    (hn : NoCollision D g L) (hb : BottomUp D g L) (nowTime : Option UInt64) (u : Ucan) (w : World) (hc : Coherent w.parser)
    (hk : Chain.Calm E w.parser.ctors) :
    ∃ N r w', r ≠ .error .diverge ∧ ∀ fuel, N ≤ fuel → Chain.fromUcan D E nowTime fuel u w = (r, w') := by
  refine C36_terminates D E nowTime u w hc hk ⟨_, ?_⟩
  rintro v ⟨s, hs, cid, tok, h1, _, ⟨i, h3⟩, h4⟩
  exact bottomUp_acc hE hl hn L (List.suffix_refl _) hb tok v ((served_read hE h3).2.suffix (hl i)) h4

/-! ## C56 CID text round trip, C63 References and hashers -/

/-- C56: the text of a version 1 CID parses to it. -/
theorem C56_round_trip (D : Deps) (c : Cid) (hv : c.v1 = true) (h : c.digest.length ≤ 64) : Cid.parse D c.toStr = some c := Cid.parse_toStr D c hv h

/-- C56: different CIDs have different texts. -/
theorem C56_injective (a b : Cid) (ha : a.v1 = true) (hb : b.v1 = true) (hla : a.digest.length ≤ 64) (hlb : b.digest.length ≤ 64)
    (h : a.toStr = b.toStr) : a = b := Cid.toStr_inj ha hb hla hlb h

/-- Hash functions return at most 64 bytes. -/
def Spec.ShortDigests (D : Deps) : Prop := ∀ code b, (D.digest code b).length ≤ 64

/-- C56: every entry of the proof list of every builder is the text of a raw CID of some UCAN's token. -/
theorem C56_builder (D : Deps) (hD : ShortDigests D) (ops : List Builder.Op) (s : String) (hs : s ∈ (Builder.run D ops).proofs) :
    ∃ (u : Ucan) (hasher : UInt64), Cid.parse D s = some ⟨true, Cid.rawCodec, hasher, D.digest hasher (strBytes (u.encode D))⟩ := by
  have key : ∀ (ops : List Builder.Op) (b : Builder), s ∈ (ops.foldl (Builder.apply D) b).proofs → s ∈ b.proofs ∨ ∃ u : Ucan, ∃ hasher, s = (u.toCid D hasher).toStr := by
    intro ops
    induction ops with
    | nil => intro b h; exact Or.inl h
    | cons op ops ih =>
      intro b h
      rcases ih _ h with h | h
      · cases op with
        | witnessedBy u hh =>
          rcases List.mem_append.1 h with h | h
          · exact Or.inl h
          · exact Or.inr ⟨u, _, List.mem_singleton.1 h⟩
        | delegatingFrom u hh =>
          have h' : s ∈ b.proofs ++ [(u.toCid D (hh.getD Builder.defaultHasher)).toStr] := by
            simp only [Builder.apply, Builder.delegatingFrom] at h
            split at h <;> exact h
          rcases List.mem_append.1 h' with h | h
          · exact Or.inl h
          · exact Or.inr ⟨u, _, List.mem_singleton.1 h⟩
        | withFact k f => cases f <;> exact Or.inl h
        | _ => exact Or.inl h
      · exact Or.inr h
  rcases key ops _ hs with h | ⟨u, hasher, rfl⟩
  · cases h
  · refine ⟨u, hasher, ?_⟩
    rw [C56_round_trip D _ rfl (hD _ _), Ucan.toCid, Ucan.strBytes_encode]

/-- C63: once a token is written to a memory store, a proof reference made with the default hash resolves to it. -/
theorem C63_default_resolves (D : Deps) (hD : ShortDigests D) (m : Dags) (u : Ucan) (hu : Ucan.fromStr D (u.encode D) = .ok u) :
    Resolves D (fun c b => (writeToken D m (u.encode D)).2 c = some b) (u.toCid D Builder.defaultHasher).toStr u := by
  refine ⟨_, u.encode D, C56_round_trip D _ rfl (hD _ _), rfl, ?_, hu⟩
  have : u.toCid D Builder.defaultHasher = blockCid D (strBytes (u.encode D)) := by
    rw [Ucan.toCid, Ucan.strBytes_encode]; rfl
  show (if _ = _ then _ else _) = _
  rw [this, if_pos rfl]

/-- C63: the CID that writing the token returns is the one that the reference names. -/
theorem C63_same_cid (D : Deps) (m : Dags) (u : Ucan) : (writeToken D m (u.encode D)).1 = .ok (u.toCid D Builder.defaultHasher) := by
  rw [Ucan.toCid, ← Ucan.strBytes_encode]; rfl

/-- C63: a reference made with any other hash is never found, whatever has been written to the store. -/
theorem C63_other_hasher (D : Deps) (hD : ShortDigests D) (l : List Op) (g : Nat) (u : Ucan) (hasher : UInt64) (hh : hasher ≠ Builder.defaultHasher) :
    ∃ c, Cid.parse D (u.toCid D hasher).toStr = some c ∧ (after D l).dags g c = none := by
  refine ⟨_, C56_round_trip D _ rfl (hD _ _), ?_⟩
  cases h : (after D l).dags g (u.toCid D hasher) with
  | none => rfl
  | some b => exact absurd (congrArg Cid.hashCode (C50_content D l g _ b h)) hh

/-! ## Beside C50, C61, C62: a delegation stored in a memory store -/

namespace Ex

/-- Key 2 hands on to key 3 what key 1 granted in `leaf`; the proof is named by the hash of its token. -/
def handOn (D : Deps) : Ucan :=
  ucan D 2 (did 3) (some 10) (some 6) (some [((leaf D).toCid D Builder.defaultHasher).toStr]) (caps "mailto:a@b" "msg/send")

/-- Both tokens written through two handles of one store. -/
def stored2 (D : Deps) : List Op :=
  [.write 1 (.bytes (strBytes ((handOn D).encode D))), .clone 0, .write 0 (.bytes (strBytes ((leaf D).encode D))), .create]

def env2 (D : Deps) : Env := ⟨fun _ => 7, fun _ c => memRead ((after D (stored2 D)).dags 0) c⟩

theorem served2 (D : Deps) : Served D (env2 D) 0 (fun _ => stored2 D) := fun _ _ => rfl

theorem written_two {b b1 b2 : Bytes} (h : Written 0 b [.write 1 (.bytes b1), .clone 0, .write 0 (.bytes b2), .create]) : b = b1 ∨ b = b2 := by
  cases h with
  | here _ _ => exact Or.inl rfl
  | earlier _ h =>
    cases h with
    | earlier _ h =>
      cases h with
      | here _ _ => exact Or.inr rfl
      | earlier _ h =>
        cases h with
        | earlier _ h => cases h

theorem noCollision_two (D : Deps) {b1 b2 : Bytes} (hD : blockCid D b1 ≠ blockCid D b2) :
    NoCollision D 0 [.write 1 (.bytes b1), .clone 0, .write 0 (.bytes b2), .create] := by
  intro b b' h h' e
  rcases written_two h with rfl | rfl <;> rcases written_two h' with rfl | rfl
  · rfl
  · exact absurd e hD
  · exact absurd e.symm hD
  · rfl

theorem noCollision2 (D : Deps) (hD : blockCid D (strBytes ((handOn D).encode D)) ≠ blockCid D (strBytes ((leaf D).encode D))) :
    NoCollision D 0 (stored2 D) := noCollision_two D hD

theorem bottomUp2 (D : Deps) (hD : ShortDigests D) : BottomUp D 0 (stored2 D) := by
  refine ⟨fun _ t u s cid ht hu hs hc => ?_, fun _ t u s cid ht hu hs hc => ?_, trivial⟩
  · have e := strBytes_inj ht
    subst e
    have hp : Ucan.fromStr D ((handOn D).encode D) = .ok (handOn D) := parses D 2 _ _ _ _ _ _
    rw [hp] at hu
    cases hu
    have hs : s = ((leaf D).toCid D Builder.defaultHasher).toStr := by
      simpa using (show s ∈ [((leaf D).toCid D Builder.defaultHasher).toStr] from hs)
    subst hs
    rw [C56_round_trip D _ rfl (hD _ _)] at hc
    cases hc
    refine ⟨_, .earlier _ (.here 0 rfl), ?_⟩
    rw [Ucan.toCid, ← Ucan.strBytes_encode]; rfl
  · have e := strBytes_inj ht
    subst e
    have hp : Ucan.fromStr D ((leaf D).encode D) = .ok (leaf D) := parses D 1 _ _ _ _ _ _
    rw [hp] at hu
    cases hu
    exact absurd (show s ∈ ([] : List String) from hs) (by simp)

theorem built2 (D : Deps) (hD : ShortDigests D)
    (hn : blockCid D (strBytes ((handOn D).encode D)) ≠ blockCid D (strBytes ((leaf D).encode D))) :
    ∃ w', Built D (env2 D) none world w' (.mk (handOn D) [leafChain D] []) := by
  have hr : Resolves D (Holds (env2 D)) ((leaf D).toCid D Builder.defaultHasher).toStr (leaf D) := by
    refine ⟨_, (leaf D).encode D, C56_round_trip D _ rfl (hD _ _), rfl, ?_, parses D 1 (did 2) _ _ _ _ _⟩
    refine Chain.memRead_bytes.2 ?_
    have e : (leaf D).toCid D Builder.defaultHasher = blockCid D (strBytes ((leaf D).encode D)) := by
      rw [Ucan.toCid, ← Ucan.strBytes_encode]; rfl
    rw [e, (refines D (stored2 D)).dags]
    show (if _ ∧ _ then _ else if _ ∧ _ then _ else _) = _
    rw [if_neg (fun h => hn h.2), if_pos ⟨rfl, rfl⟩]
  obtain ⟨fuel, h⟩ := (C24_complete D (env2 D) none 7 (fun _ => rfl) (fun _ _ _ => rfl) ((handOn D).encode D) world world_coherent
    (.mk (handOn D) [leafChain D] [])).2 ⟨parses D 2 _ _ _ _ _ _, by
      unfold leafChain
      simp only [Sound, SoundAll]
      refine ⟨valid D 2 _ 10 6 _ _ 7 (by decide) (by decide), ⟨_, [], rfl, hr, ⟨rfl, ?_, ?_⟩,
        ⟨valid D 1 _ 20 5 _ _ 7 (by decide) (by decide), rfl, ?_⟩, rfl⟩, ?_⟩
      · intro n hn; cases hn; exact ⟨6, rfl, by decide⟩
      · intro n hn; cases hn; exact ⟨10, rfl, by decide⟩
      · refine ⟨by simp [BSet.Sorted], fun i => ?_, by simp⟩
        constructor
        · intro h; cases h
        · intro h; exact absurd h (leaf_no_redel D i)
      · refine ⟨by simp [BSet.Sorted], fun i => ?_, by simp⟩
        constructor
        · intro h; cases h
        · intro h
          obtain ⟨c, hc, hr⟩ := h
          exact absurd ⟨c, hc, hr⟩ (leaf_no_redel D i)⟩
  exact ⟨_, .ofToken fuel _ (Prod.ext h rfl)⟩

/-- Beside C37: a store to which the grant and then another token are added while a chain is being built. -/
def growing (D : Deps) (b : Bytes) : Nat → Dags
  | 0 => fun _ => none
  | 1 => (memWrite D (fun _ => none) (.bytes (strBytes ((leaf D).encode D)))).2
  | _ => (memWrite D (memWrite D (fun _ => none) (.bytes (strBytes ((leaf D).encode D)))).2 (.bytes b)).2

example (D : Deps) (b : Bytes) (hn : blockCid D b ≠ blockCid D (strBytes ((leaf D).encode D))) :
    ∀ i, Grows D (growing D b i) (growing D b (i + 1)) := by
  have key : ∀ b1 : Bytes, blockCid D b ≠ blockCid D b1 → Grows D (memWrite D (fun _ => none) (.bytes b1)).2
      (memWrite D (memWrite D (fun _ => none) (.bytes b1)).2 (.bytes b)).2 := by
    intro b1 h1
    refine .write b (.refl _) ?_
    intro b' h
    simp only [memWrite, if_neg h1] at h
    cases h
  intro i
  match i with
  | 0 => exact .write _ (.refl _) (by simp)
  | 1 => exact key _ hn
  | i + 2 => exact .refl _

end Ex

end Verif
