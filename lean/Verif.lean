import Verif.Mem.Props
import Verif.Mem.Bitmap
import Verif.Heap.Props
import Verif.Heap.DswProps
import Verif.Val.Props
import Verif.Flat.Props
import Verif.Tok.ChanProps
import Verif.Tok.StrPosition
import Verif.Tok.Schedule
import Verif.Tok.IntLit
import Verif.Tok.StrLit
import Verif.Tok.Safety
import Verif.Tok.Blank
import Verif.Env.Props
import Verif.Defrag.Props
import Verif.Sym.Props
import Verif.Arith.Props
import Verif.Eq.Props
import Verif.Lists.Props
import Verif.Sort.Props
import Verif.Ev.Props
import Verif.Mbox.Props
import Verif.Sched.Props
import Verif.Eval.Props
import Verif.Buf.Props
import Verif.QQ.Props
import Verif.Flash.Props
import Verif.Print.Props
import Verif.Print.ParseProps
import Verif.Str.Props
import Verif.Gc.Props
import Verif.Img.Props
import Verif.Set.Props
import Verif.Eval.OwnProps
import Verif.Eval.MapProps
import Verif.Eval.RenProps
import Verif.Eval.PoolProps
import Verif.Ctl.Props
import Verif.Proc.Props
import Verif.Eval.SpawnProps
import Verif.Eval.ProgramProps
import Verif.Eval.TidyProps
import Verif.Custom.Props
import Verif.Lists.ArraysProps
import Verif.Sched.WaitProps
import Verif.QQ.Link
import Verif.LoopExt.Demo
import Verif.Stack.Props
import Verif.Prof.Props
import Verif.Print.IncrProps
import Verif.Rand.Props
import Verif.Host.Props
import Verif.Buf.F32Props
import Verif.Eval.FramesProps
import Verif.Jpg.Props
import Verif.Matvec.Props
import Verif.Img.WarpProps
import Verif.Img.ArgsProps
import Verif.Chat.Props
import Verif.Post.Props
import Verif.Env.Reify
import Verif.Rts.Props
import Verif.Img.ArcProps
import Verif.Bufs.Props
import Verif.Kont.Props
import Verif.Eval.Builtin
import Verif.Eval.AssocProps
import Verif.Eval.ListFns
import Verif.Eval.TakeFn
import Verif.Img.ColorObj
import Verif.Eval.LimitProps
import Verif.Gc.Builtin
import Verif.Gc.Retry
import Verif.Bufs.Share
import Verif.Custom.Chan
import Verif.Flash.Share
import Verif.Val.TypeOf
import Verif.Tok.FloatLit
import Verif.Heap.SetProps
import Verif.Mem.Peak
import Verif.Flat.Host
import Verif.Jpg.Restart
import Verif.Jpg.Scale
import Verif.Lists.NotList
import Verif.Img.Mirror
import Verif.Img.Render
import Verif.Flat.Memory
import Verif.Flat.EnvImage
import Verif.Quota.Props
import Verif.Heap.Stats
import Verif.Img.Buffer
import Verif.Sym.Sizes
import Verif.Arith.MathExt
import Verif.Env.Clear
import Verif.Sched.Blocking
