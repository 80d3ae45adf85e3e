import Verif.Props.ProofSemantics
import Verif.Props.Store

/-! # Properties C48 and C20 once more: whole tokens, and the text of proof selections -/

namespace Verif
open Spec Store

/-- C48, as `write_token` and `read_token`: a token written through any handle is read back through any other handle of the store, by the CID that writing it
returned, at any later time, whatever else happens to the store in between. -/
theorem C48_token (D : Deps) (l L : List Op) (h g : Nat) (t : String) (hb : Belongs l h g) (hL : .write h (.bytes (strBytes t)) :: l <:+ L)
    (hn : NoCollision D g L) (E : Env) (w : World) (hE : ∀ c, E.read w.tick c = memRead ((after D L).dags g) c) :
    ∃ cid, writeToken D ((after D l).dags g) t = (.ok cid, (after D (.write h (.bytes (strBytes t)) :: l)).dags g) ∧
      (readToken E cid w).1 = .ok (some t) := by
  refine ⟨blockCid D (strBytes t), ?_, ?_⟩
  · refine Prod.ext rfl ?_
    funext c
    show (if c = blockCid D (strBytes t) then some (strBytes t) else (after D l).dags g c) = (after D (.write h (.bytes (strBytes t)) :: l)).dags g c
    rw [(refines D l).dags, (refines D (.write h (.bytes (strBytes t)) :: l)).dags]
    show _ = if _ then _ else _
    by_cases hc : c = blockCid D (strBytes t)
    · rw [if_pos hc, if_pos ⟨hb, hc.symm⟩]
    · rw [if_neg hc, if_neg fun h => hc h.2.symm]
  · have hw : Written g (strBytes t) L := Written.suffix (.here h hb) hL
    rw [C49_read_iff]
    refine ⟨rfl, t, rfl, ?_⟩
    rw [hE, memRead, (refines D L).dags]
    obtain ⟨b', hb'⟩ := written_stored (D := D) hw
    obtain ⟨hw', e⟩ := stored_written hb'
    rw [hb', hn b' _ hw' hw e]
    rfl

/-- C48: values other than bytes are refused, and leave every store as it is. -/
theorem C48_refused (D : Deps) (l : List Op) (h g : Nat) (hb : Belongs l h g) (v : Ipld) (hv : ∀ b, v ≠ .bytes b) :
    (∃ e, (step D (after D l) (.write h v)).1 = .cid (.error (.err e))) ∧ (after D (.write h v :: l)).dags = (after D l).dags := by
  have hr := refines D l
  have hm : ∀ m, memWrite D m v = (err .storeIo, m) := by
    intro m
    cases v <;> first | rfl | exact absurd rfl (hv _)
  rw [after_cons]
  simp only [step, hr.handles, show (families l)[h]? = some g from hb, hm]
  refine ⟨⟨_, rfl⟩, ?_⟩
  funext j
  split
  · rename_i e; rw [e]
  · rfl

/-- C20: the text of a proof selection, read as a URL, is that selection again. (It does not survive as part of a view if it is `all`:
`C19_all_unreachable`.) -/
theorem C20_selection (D : Deps) (s : ProofSelection) (hs : ∀ n, s = .index n → n < 2 ^ 64) :
    ∃ u, Url.parse D s.toStr = some u ∧ ProofSelection.ofUrl u = some s := by
  cases s with
  | index n =>
    have h := (C19_index_iff D ⟨"prf:" ++ asciiStr (Json.decBytes n), "ucan/DELEGATE", .obj []⟩ n).1 ⟨_, C19_decimal D n (hs n rfl) _, rfl⟩
    obtain ⟨_, u, hu, h1, h2⟩ := h
    refine ⟨u, hu, ?_⟩
    unfold ProofSelection.ofUrl ProofSelection.ofString
    rw [if_pos h1, if_neg ?_, (parseUsize_iff _ _).2 h2]
    · rfl
    · intro e
      rw [e, ← parseUsize_iff] at h2
      revert h2
      have : parseUsize (strBytes "*") = none := by decide +kernel
      rw [this]
      intro h; cases h
  | all =>
    refine ⟨⟨"prf", "", "*", none, none, "", none, none⟩, ?_, by decide⟩
    unfold ProofSelection.toStr Url.parse Url.parseBytes
    have h1 : Url.splitScheme ((Url.trim (strBytes "prf:*")).filter fun b => !Url.isTabNl b) = some (strBytes "prf", [42]) := by decide +kernel
    rw [h1]
    have h2 : ¬ (asciiStr (strBytes "prf") ∈ Url.specials ∨ ([42] : Bytes).head? = some 47) := by decide +kernel
    simp only [if_neg h2]
    decide +kernel

namespace Ex

/-- Beside `C48_token`: written through one handle, read through a clone after another write. -/
example (D : Deps) (hD : blockCid D (strBytes "a") ≠ blockCid D (strBytes "b")) (E : Env) (w : World)
    (hE : ∀ c, E.read w.tick c = memRead ((after D [.write 1 (.bytes (strBytes "a")), .clone 0, .write 0 (.bytes (strBytes "b")), .create]).dags 0) c) :
    (readToken E (blockCid D (strBytes "b")) w).1 = .ok (some "b") := by
  obtain ⟨cid, h1, h2⟩ := C48_token D [.create] _ 0 0 "b" rfl ⟨[_, _], rfl⟩ (noCollision_two D hD) E w hE
  cases h1
  exact h2

end Ex

end Verif
