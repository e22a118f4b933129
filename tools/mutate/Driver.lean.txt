import Lean
open Lean Elab
/- Elaborate a file, print its errors, and write the .olean even if there are errors (failed proofs are admitted). -/
unsafe def main (args : List String) : IO UInt32 := do
  let [modName, file, out] := args | return 2
  enableInitializersExecution
  initSearchPath (← findSysroot)
  let input ← IO.FS.readFile file
  let inputCtx := Parser.mkInputContext input file
  let (header, parserState, messages) ← Parser.parseHeader inputCtx
  let (env, messages) ← processHeader header {} messages inputCtx (mainModule := modName.toName)
  let s ← IO.processCommands inputCtx parserState (Command.mkState env messages {})
  for m in s.commandState.messages.toList do
    if m.severity == .error then
      IO.println s!"ERR {m.pos.line} {(← m.data.toString).take 120 |>.replace "\n" " "}"
  writeModule s.commandState.env out
  return 0
