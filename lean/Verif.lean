import Verif.HeapTable.Props
import Verif.Sort.Props
import Verif.Deque.Props
import Verif.Integer.Props
import Verif.MachineWord.Props
import Verif.Threads.SimpleLock.Props
import Verif.Threads.RecursiveLock.Props
import Verif.Threads.Semaphore.Props
import Verif.Threads.Join.Props
import Verif.Threads.Tlv.Props
import Verif.Range.Props
import Verif.Range.PropsIntersect
import Verif.Mangle.Props
import Verif.Types.Props
import Verif.Table.Props
import Verif.Class.Props
import Verif.Slots.Props
import Verif.Init.Props
import Verif.Threads.ReadWrite.Props
import Verif.Dispatch.Table.Props
import Verif.Dispatch.Order.Props
import Verif.Dispatch.Engine.Props
import Verif.Dispatch.Gf.Props
import Verif.IntString.Props
import Verif.Date.Props
import Verif.Date.TextProps
import Verif.Stretchy.Props
import Verif.Lists.Props
import Verif.Nlx.Props
import Verif.Args.Props
import Verif.Conc.Props
import Verif.Bits.Props
import Verif.Streams.Props
import Verif.SeqStream.Props
import Verif.Locators.Props
import Verif.Common.Props
import Verif.Iter.Props
import Verif.Iter.MapIntoProps
import Verif.Iter.MultiProps
import Verif.Iter.AccumulatorProps
import Verif.BigInt.PowerProps
import Verif.Signal.Props
import Verif.Reader.BinopProps
import Verif.Reader.LexerProps
import Verif.Reader.OffsetsProps
import Verif.Reader.LiteralsProps
import Verif.Reader.StringProps
import Verif.Reader.MultiProps
import Verif.Reader.CommentProps
import Verif.Reader.FloatProps
import Verif.Names.FilterProps
import Verif.Names.ModulesProps
import Verif.Names.UsesProps
import Verif.Reader.HashProps
import Verif.Format.CommonProps
import Verif.Print.EscapeProps
import Verif.Print.StructureProps
import Verif.Names.ConflictProps
import Verif.Print.CircleProps
import Verif.Macro.PatternProps
import Verif.Macro.ExpandProps
import Verif.Macro.ConstraintProps
import Verif.Hash.Props
import Verif.Loops.Props
import Verif.Arrays.Props
import Verif.Indent.Props
import Verif.Cse.Props
import Verif.MwFold.Props
import Verif.MwPeep.Props
import Verif.WordString.Props
import Verif.Plist.Props
import Verif.Random.Props
import Verif.Bitcode.Props
import Verif.Glob.Props
import Verif.Header.Props
import Verif.CmdLine.Props
import Verif.Pool.Props
import Verif.JamBuild.Props
import Verif.JamBind.Props
import Verif.TList.Props
import Verif.ClSeq.Props
import Verif.JamExpand.Props
import Verif.JamNames.Props
import Verif.JamSelect.Props
import Verif.JamMods.Props
import Verif.JamLex.Props
import Verif.JamScope.Props
