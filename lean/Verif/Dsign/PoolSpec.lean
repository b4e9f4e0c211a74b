import Verif.Dsign.Pool

/-!
# What happened to the reports
-/

namespace Verif.Dsign.Pool

/-- The history: what a branch reports, for each tracker (of a block and all before it); what `Add` took; what was committed; the
highest first height that was set. -/
structure Hist where
  branch : List (List Key)
  added : List Key
  committed : List Key
  first : Int

/-- What can happen: a report is added, a tracker is made (of a first block, or of a block on top of another, with the reports in
it), a tracker is committed with all below it, and a first height is set. -/
inductive Step : Sys → Hist → Sys → Hist → Prop
  | add {s : Sys} {h : Hist} (height : Int) (signer : Nat) {m : Manager} : s.man.add height true (some signer) = some m →
      Step s h { s with man := m } { h with added := h.added ++ [⟨height, signer⟩] }
  | root {s : Sys} {h : Hist} : Step s h { s with trk := s.trk ++ [⟨[], none⟩] } { h with branch := h.branch ++ [[]] }
  | child {s : Sys} {h : Hist} (p : Nat) {up : List Key} (ks : List Key) : h.branch[p]? = some up →
      Step s h { s with trk := s.trk ++ [⟨ks, some p⟩] } { h with branch := h.branch ++ [up ++ ks] }
  | commit {s : Sys} {h : Hist} (i : Nat) {ks : List Key} : h.branch[i]? = some ks →
      Step s h (Pool.commit (i + 1) s i) { h with committed := h.committed ++ ks }
  | first {s : Sys} {h : Hist} (f : Int) : Step s h { s with man := s.man.setFirst f } { h with first := max h.first f }

/-- A node. -/
inductive Run : Sys → Hist → Prop
  | init : Run ⟨.new, []⟩ ⟨[], [], [], -1⟩
  | step {s s' : Sys} {h h' : Hist} : Run s h → Step s h s' h' → Run s' h'

end Verif.Dsign.Pool
